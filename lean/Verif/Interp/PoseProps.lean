import Verif.Interp.Pose

/-
C108: interpolation of orientations.
-/

namespace Verif.Camera.Interp

open Verif.Camera

/-- Interpolation between a unit quaternion and itself. -/
theorem slerp_self (eps alpha : ℝ) (heps : 0 < eps) (q : Quat ℝ) (hq : q.sq = 1) : slerp eps alpha q q 0 = q := by
  have hd : qdot q q = 1 := by rw [← hq]; simp only [qdot, Quat.sq]
  rw [slerp_form, hd, if_pos (by rw [abs_one]; linarith)]
  have hn : near q q = q := by unfold near; rw [hd, if_neg (by norm_num)]
  rw [hn]
  unfold comb
  ext <;> ring_nf

theorem cround_eq (x : ℝ) (i : Nat) (hx : 0 ≤ x) (h : |x - i| < 1 / 2) : cround x = (i : Int) := by
  unfold cround
  rw [if_pos hx, Int.floor_eq_iff]
  rw [abs_lt] at h
  push_cast
  constructor <;> linarith [h.1, h.2]

/-- **C108.** Interpolation of orientations at equal positive steps: between two samples, by the fraction of the step, but for
times within a tiny part of the step of a sample, which give it if it is a unit quaternion; other times are an error. -/
theorem slerpPose_spec (eps tol : ℝ) (heps : 0 < eps) (ht0 : 0 < tol) (ht1 : tol ≤ 1 / 2) (ps : List (Quat ℝ)) (t0 dt : ℝ) (hd : 0 < dt) (t : ℝ) :
    (∀ i, i + 1 < ps.length → tol ≤ (t - knot t0 dt i) / dt → (t - knot t0 dt i) / dt ≤ 1 - tol →
      slerpPose eps tol ps t0 dt t = some (slerp eps ((t - knot t0 dt i) / dt) (ps.getD i 0) (ps.getD (i + 1) 0) 0)) ∧
    (∀ i, i < ps.length → t0 ≤ t → t ≤ tend t0 dt ps.length → |(t - knot t0 dt i) / dt| < tol → (ps.getD i 0).sq = 1 →
      slerpPose eps tol ps t0 dt t = some (ps.getD i 0)) ∧
    (t < t0 ∨ tend t0 dt ps.length < t → slerpPose eps tol ps t0 dt t = none) := by
  have hratio : ∀ i : Nat, (t - t0) / dt = (i : ℝ) + (t - knot t0 dt i) / dt := by
    intro i; unfold knot; field_simp; ring
  refine ⟨fun i hi h1 h2 => ?_, fun i hi ha hb h hq => ?_, fun h => ?_⟩
  · have hte := tend_eq t0 dt ps.length (ps.length - 1) (by omega)
    have hm := knot_mono t0 dt hd (i + 1) (ps.length - 1) (by omega)
    have hm0 := knot_mono t0 dt hd 0 i (Nat.zero_le _)
    have h0 : knot t0 dt 0 = t0 := by simp [knot]
    have hk : knot t0 dt (i + 1) = knot t0 dt i + dt := by unfold knot; push_cast; ring
    have h1' : tol * dt ≤ t - knot t0 dt i := by rwa [le_div_iff₀ hd] at h1
    have h2' : t - knot t0 dt i ≤ (1 - tol) * dt := by rwa [div_le_iff₀ hd] at h2
    have htd : 0 < tol * dt := mul_pos ht0 hd
    have hr : t0 ≤ t ∧ t ≤ tend t0 dt ps.length := ⟨by linarith, by rw [hte]; nlinarith⟩
    have hround : ∀ n : Int, ¬|(t - t0) / dt - n| < tol := by
      intro n hn
      rw [hratio i, abs_lt] at hn
      rcases le_or_gt n (i : Int) with c | c
      · have : (n : ℝ) ≤ (i : ℝ) := by exact_mod_cast c
        linarith [hn.2]
      · have : (i : ℝ) + 1 ≤ (n : ℝ) := by exact_mod_cast c
        linarith [hn.1]
    have hlt1 : knot t0 dt i ≤ t := by linarith
    have hlt2 : t < knot t0 dt (i + 1) := by nlinarith
    unfold slerpPose
    rw [if_neg (not_not.2 hr)]
    simp only
    rw [if_neg (hround _), floor_knot t0 dt t hd i hlt1 hlt2, ceil_knot t0 dt t hd i (by linarith) hlt2.le]
    rw [knot_int, if_neg (show ¬(t - knot t0 dt i) / dt < 0 by linarith), if_neg (show ¬1 < (t - knot t0 dt i) / dt by linarith),
      if_neg (not_not.2 ⟨Int.natCast_nonneg i, by omega⟩), at_nat, at_succ]
  · have hx : 0 ≤ (t - t0) / dt := div_nonneg (by linarith) hd.le
    have hab : |(t - t0) / dt - (i : ℝ)| < tol := by rw [hratio i, add_sub_cancel_left]; exact h
    have hc : cround ((t - t0) / dt) = (i : Int) := cround_eq _ i hx (by linarith)
    unfold slerpPose
    rw [if_neg (not_not.2 ⟨ha, hb⟩)]
    simp only
    have hif : (if |(t - t0) / dt - (((i : Nat) : Int) : ℝ)| < tol then (((i : Nat) : Int) : ℝ) else (t - t0) / dt) = (((i : Nat) : Int) : ℝ) :=
      if_pos (by push_cast; exact hab)
    rw [hc, hif, Int.floor_intCast, Int.ceil_intCast]
    rw [if_neg (not_not.2 ⟨Int.natCast_nonneg i, by omega⟩), at_nat, slerp_self _ _ heps _ hq]
  · unfold slerpPose
    rw [if_pos]
    rintro ⟨h1, h2⟩
    rcases h with h | h <;> linarith

/-- **C108.** From unit quaternions, at every time of the range the result is one up to the tolerance of the interpolation. -/
theorem slerpPose_unit (eps tol : ℝ) (heps : 0 < eps) (ht0 : 0 < tol) (ht1 : tol ≤ 1 / 2) (ps : List (Quat ℝ)) (t0 dt : ℝ) (hd : 0 < dt) (hn : 0 < ps.length)
    (hu : ∀ i, i < ps.length → (ps.getD i 0).sq = 1) (t : ℝ) (h1 : t0 ≤ t) (h2 : t ≤ tend t0 dt ps.length) :
    ∃ q, slerpPose eps tol ps t0 dt t = some q ∧ 1 - eps / 2 ≤ q.sq ∧ q.sq ≤ 1 := by
  obtain ⟨s1, s2, _⟩ := slerpPose_spec eps tol heps ht0 ht1 ps t0 dt hd t
  have near1 : ∀ i, i < ps.length → |(t - knot t0 dt i) / dt| < tol → ∃ q, slerpPose eps tol ps t0 dt t = some q ∧ 1 - eps / 2 ≤ q.sq ∧ q.sq ≤ 1 := by
    intro i hi h
    exact ⟨_, s2 i hi h1 h2 h (hu i hi), by rw [hu i hi]; linarith, (hu i hi).le⟩
  rcases segment t0 dt t hd ps.length hn h1 h2 with ⟨i, hi, ha, hb⟩ | h
  · have hk : (t - knot t0 dt (i + 1)) / dt = (t - knot t0 dt i) / dt - 1 := by unfold knot; push_cast; field_simp; ring
    have hp : 0 ≤ (t - knot t0 dt i) / dt := div_nonneg (by linarith) hd.le
    have hq : (t - knot t0 dt (i + 1)) / dt < 0 := div_neg_of_neg_of_pos (by linarith) hd
    by_cases c1 : (t - knot t0 dt i) / dt < tol
    · exact near1 i (by omega) (by rw [abs_of_nonneg hp]; exact c1)
    by_cases c2 : 1 - tol < (t - knot t0 dt i) / dt
    · exact near1 (i + 1) hi (by rw [abs_of_neg hq, hk]; linarith)
    refine ⟨_, s1 i hi (by linarith) (by linarith), ?_⟩
    obtain ⟨u1, u2⟩ := slerp_unit eps ((t - knot t0 dt i) / dt) heps (ps.getD i 0) (ps.getD (i + 1) 0) (hu i (by omega)) (hu (i + 1) hi) 0
    by_cases c : 1 - |qdot (ps.getD i 0) (ps.getD (i + 1) 0)| < eps
    · exact u2 c hp (by linarith)
    · rw [(u1 (by linarith)).1]
      exact ⟨by linarith, le_rfl⟩
  · exact near1 (ps.length - 1) (by omega) (by rw [← h, sub_self, zero_div, abs_zero]; exact ht0)

/-- Non-vacuity. -/
example : slerpPose (1 / 100) (1 / 100) [⟨1, 0, 0, 0⟩, ⟨0, 1, 0, 0⟩] 10 2 12 = some ⟨0, 1, 0, 0⟩ :=
  (slerpPose_spec (1 / 100) (1 / 100) (by norm_num) (by norm_num) (by norm_num) _ 10 2 (by norm_num) 12).2.1 1 (by simp) (by norm_num) (by norm_num [tend])
    (by norm_num [knot]) (by norm_num [Quat.sq])

theorem slerpN_const (eps tol : ℝ) (heps : 0 < eps) (q : Quat ℝ) (hq : q.sq = 1) (n : Nat) (l : List (ℝ × Quat ℝ)) (hl : l.length = n)
    (h : ∀ p ∈ l, p.2 = q) (hs : slerpN eps tol 0 l ≠ none) : slerpN eps tol 0 l = some q := by
  induction n generalizing l with
  | zero =>
    have : l = [] := List.length_eq_zero_iff.1 hl
    subst this
    exact absurd (by rw [slerpN]) hs
  | succ n ih =>
    match l, hl, h, hs with
    | [(w, a)], _, h, _ =>
      rw [slerpN]
      have := h (w, a) (by simp)
      simp only at this
      rw [this]
    | [(w0, q0), (w1, q1)], _, h, hs =>
      have e0 := h (w0, q0) (by simp)
      have e1 := h (w1, q1) (by simp)
      simp only at e0 e1
      subst e0 e1
      rw [slerpN] at hs ⊢
      by_cases c : |w0 + w1 - 1| < tol ∧ 0 ≤ w0 ∧ 0 ≤ w1
      · rw [if_pos c, slerp_self _ _ heps _ hq]
      · rw [if_neg c] at hs; exact absurd rfl hs
    | (w0, q0) :: (w1, q1) :: r :: l, hl, h, hs =>
      have e0 := h (w0, q0) (by simp)
      have e1 := h (w1, q1) (by simp)
      simp only at e0 e1
      subst e0 e1
      rw [slerpN] at hs ⊢
      rw [slerp_self _ _ heps _ hq] at hs ⊢
      refine ih _ (by simpa using hl) ?_ hs
      intro p hp
      rw [List.mem_cons] at hp
      rcases hp with rfl | hp
      · rfl
      · exact h p (List.mem_cons_of_mem _ (List.mem_cons_of_mem _ hp))

theorem wsum_map (f : Nat → Quat ℝ) (W : List (ℝ × Nat)) : wsum (W.map (fun w => (w.1, f w.2))) = (W.map Prod.fst).sum := by
  unfold wsum; rw [List.map_map]; rfl

/-- **C108.** The smoothed orientation: in the range of times, with at least two samples and at least one weight, there is
always a result, and an orientation at rest stays; otherwise it is an error. -/
theorem smoothPose_spec (eps tol : ℝ) (heps : 0 < eps) (htol : 0 < tol) (sort : List (ℝ × Nat) → List (ℝ × Nat)) (hs : Sorts sort) (ps : List (Quat ℝ))
    (t0 dt : ℝ) (num : Nat) (sigma t : ℝ) (hsig : 0 < sigma) (hdt : 0 < dt) :
    (smoothPose eps tol sort ps t0 dt num sigma t ≠ none ↔ 1 < ps.length ∧ t0 ≤ t ∧ t ≤ tend t0 dt ps.length ∧ 0 < num) ∧
    (∀ q, q.sq = 1 → (∀ i, i < ps.length → ps.getD i 0 = q) → 1 < ps.length → t0 ≤ t → t ≤ tend t0 dt ps.length → 0 < num →
      smoothPose eps tol sort ps t0 dt num sigma t = some q) := by
  have some' : 1 < ps.length → 0 < num →
      slerpN eps tol 0 ((weights Real.exp sort t0 dt t ps.length num sigma).map (fun w => (w.1, ps.getD w.2 0))) ≠ none := by
    intro hn hnum
    obtain ⟨w1, w2, w3, w4, _, _⟩ := weights_spec Real.exp Real.exp_pos Real.exp_strictMono sort hs t0 dt t ps.length num sigma hsig hdt (by omega) hnum
    set W := weights Real.exp sort t0 dt t ps.length num sigma with hW
    clear_value W
    match W, w1, w3, w4 with
    | [], w1, _, _ => simp at w1; omega
    | [a], _, _, _ => rw [List.map_cons, List.map_nil, slerpN]; simp
    | a :: b :: l, _, w3, w4 =>
      have hs := wsum_map (fun i => ps.getD i 0) (a :: b :: l)
      rw [w4] at hs
      rw [List.map_cons, List.map_cons] at hs ⊢
      rw [slerpN_some eps tol 0 _ _ _ _ _ _ rfl (w3 a (by simp)).2.le (w3 b (by simp)).2.le (add_pos (w3 a (by simp)).2 (w3 b (by simp)).2) ?_, hs]
      · simpa using htol
      · intro p hp
        obtain ⟨w, hw, rfl⟩ := List.mem_map.1 hp
        exact (w3 w (by simp [hw])).2.le
  constructor
  · constructor
    · intro h
      unfold smoothPose at h
      by_cases c : ps.length ≤ 1
      · rw [if_pos c] at h; exact absurd rfl h
      rw [if_neg c] at h
      by_cases c2 : t0 ≤ t ∧ t ≤ tend t0 dt ps.length
      · refine ⟨by omega, c2.1, c2.2, ?_⟩
        by_contra c3
        have : num = 0 := by omega
        subst this
        rw [if_neg (not_not.2 c2)] at h
        have : weights Real.exp sort t0 dt t ps.length 0 sigma = [] := by simp [weights]
        rw [this, List.map_nil, slerpN] at h
        exact h rfl
      · rw [if_pos c2] at h; exact absurd rfl h
    · rintro ⟨a, b, c, d⟩
      unfold smoothPose
      rw [if_neg (by omega), if_neg (not_not.2 ⟨b, c⟩)]
      exact some' a d
  · intro q hq hall a b c d
    unfold smoothPose
    rw [if_neg (by omega), if_neg (not_not.2 ⟨b, c⟩)]
    refine slerpN_const eps tol heps q hq _ _ rfl ?_ (some' a d)
    intro p hp
    obtain ⟨w, hw, rfl⟩ := List.mem_map.1 hp
    obtain ⟨_, _, w3, _⟩ := weights_spec Real.exp Real.exp_pos Real.exp_strictMono sort hs t0 dt t ps.length num sigma hsig hdt (by omega) d
    exact hall _ (w3 w hw).1

/-! ## Lagrange -/

/-- The window is always there with enough samples. -/
theorem varWindow_any {K : Type} [Field K] [LinearOrder K] [IsStrictOrderedRing K] [FloorRing K] (ts : List K) (r : Nat) (hr : 1 ≤ r)
    (hn : 2 * r ≤ ts.length) (t : K) : ∃ w : Nat, varWindow ts r t = some ((w : Int), (w : Int) + 2 * r) ∧ w + 2 * r ≤ ts.length ∧
      ((w : Int) ≤ nextOf ts t - 1 ∨ w = 0) ∧ nextOf ts t < w + 2 * r := by
  have hb : 0 ≤ nextOf ts t ∧ nextOf ts t < ts.length := by
    unfold nextOf
    cases hf : ts.findIdx? (fun x => decide (t < x)) with
    | none => simp only; omega
    | some i =>
      rw [List.findIdx?_eq_some_iff_getElem] at hf
      obtain ⟨hi, _⟩ := hf
      simp only
      omega
  rcases Int.lt_or_le (nextOf ts t) 1 with c | c
  · have h0 : nextOf ts t = 0 := by omega
    refine ⟨0, ?_, by omega, Or.inr rfl, by omega⟩
    unfold varWindow
    simp only
    rw [h0, if_pos (show (0 : Int) - (r : Int) < 0 by omega)]
    simp only
    rw [if_neg (show ¬((ts.length : Int) < 0 + (r : Int) - (0 - (r : Int))) by omega)]
    simp only
    rw [if_neg (by omega)]
    congr 1
    refine Prod.ext ?_ ?_ <;> simp only <;> omega
  · obtain ⟨i, hi⟩ : ∃ i : Nat, nextOf ts t = (i : Int) + 1 := ⟨(nextOf ts t - 1).toNat, by omega⟩
    have hw := window_spec ts.length r i hr hn (by omega)
    exact ⟨window ts.length r i, by rw [varWindow_next ts r t i (by omega) hi, if_pos hn], hw.1, Or.inl (by omega), by omega⟩

/-- The value of the polynomial of lowest degree through the samples of a component in a window. -/
noncomputable def comp (ts : List ℝ) (c : Nat → ℝ) (w len : Nat) (t : ℝ) : ℝ :=
  (Lagrange.interpolate (Finset.Ico w (w + len)) (fun i => ts.getD i 0) c).eval t

/-- A quaternion divided by its length, if it has one. -/
noncomputable def unitOf (q : Quat ℝ) : Quat ℝ := if 0 < Real.sqrt q.sq then ⟨q.w / Real.sqrt q.sq, q.x / Real.sqrt q.sq, q.y / Real.sqrt q.sq, q.z / Real.sqrt q.sq⟩ else q

/-- **C108.** Lagrange interpolation of orientations: in each component the value of the polynomial of degree below twice the
radius through the samples of a window, divided by the length if there is one; for increasing times the window holds the
samples around the time. -/
theorem quatVar_spec (ps : List (Quat ℝ)) (ts : List ℝ) (r : Nat) (hr : 1 ≤ r) (hn : 2 * r ≤ ts.length) (t : ℝ) :
    ∃ w : Nat, w + 2 * r ≤ ts.length ∧
      quatVar ps ts r t = some (unitOf ⟨comp ts (fun j => (ps.getD j 0).w) w (2 * r) t, comp ts (fun j => (ps.getD j 0).x) w (2 * r) t,
        comp ts (fun j => (ps.getD j 0).y) w (2 * r) t, comp ts (fun j => (ps.getD j 0).z) w (2 * r) t⟩) ∧
      ((∀ i j, i < j → j < ts.length → ts.getD i 0 < ts.getD j 0) →
        ∀ k, k < ts.length → ts.getD k 0 ≤ t → (k + 1 < ts.length → t < ts.getD (k + 1) 0) →
          w ≤ k ∧ k < w + 2 * r ∧ (k + 1 < ts.length → k + 1 < w + 2 * r ∧ (r ≤ k + 1 → k + 1 + r ≤ ts.length → w + r = k + 1))) := by
  obtain ⟨w, hw, h1, h2, h3⟩ := varWindow_any ts r hr hn t
  refine ⟨w, h1, ?_, ?_⟩
  · unfold quatVar
    rw [hw]
    simp only
    rw [show ((w : Int) + 2 * r - w).toNat = 2 * r by omega, Int.toNat_natCast]
    have e : ∀ c : Nat → ℝ, lagSum c ts t w (2 * r) = comp ts c w (2 * r) t := by
      intro c
      unfold lagSum comp
      rw [foldl_sum (fun j => (prodExcept (fun i => t - ts.getD i 0) w (2 * r) j / prodExcept (fun i => ts.getD j 0 - ts.getD i 0) w (2 * r) j) * c j)]
      exact (eval_interp (fun i => ts.getD i 0) c w (2 * r) t).symm
    rw [e, e, e, e]
    rfl
  · intro inc k hk g1 g2
    rcases Nat.lt_or_ge (k + 1) ts.length with c | c
    · have hf := findIdx_later ts t inc k c g1 (g2 c)
      have hx : nextOf ts t = (k : Int) + 1 := by unfold nextOf; rw [hf]; simp
      have hww : w = window ts.length r k := by
        have := varWindow_next ts r t k c hx
        rw [hw, if_pos hn] at this
        simp at this
        omega
      have hws := window_spec ts.length r k hr hn c
      rw [← hww] at hws
      exact ⟨hws.2.1, by omega, fun _ => ⟨hws.2.2.1, hws.2.2.2⟩⟩
    · have hnone : ts.findIdx? (fun x => decide (t < x)) = none := by
        rw [List.findIdx?_eq_none_iff]
        intro x hx
        obtain ⟨j, hj, rfl⟩ := List.mem_iff_getElem.1 hx
        have : ts.getD j 0 ≤ ts.getD k 0 := by
          rcases Nat.lt_or_ge j k with h | h
          · exact (inc j k h hk).le
          · rw [show j = k by omega]
        rw [List.getD_eq_getElem _ _ hj] at this
        simpa using le_trans this g1
      have hx : nextOf ts t = (ts.length : Int) - 1 := by unfold nextOf; rw [hnone]
      rw [hx] at h2 h3
      exact ⟨by omega, by omega, fun h => by omega⟩

theorem unitOf_unit (q : Quat ℝ) (h : q.sq = 1) : unitOf q = q := by
  unfold unitOf
  rw [h, Real.sqrt_one, if_pos one_pos]
  ext <;> simp

/-- **C108.** At the times of the samples, the samples; and an orientation at rest, always given by the same unit quaternion,
stays. -/
theorem quatVar_sample (ps : List (Quat ℝ)) (ts : List ℝ) (inc : ∀ i j, i < j → j < ts.length → ts.getD i 0 < ts.getD j 0) (r : Nat) (hr : 1 ≤ r)
    (hn : 2 * r ≤ ts.length) :
    (∀ k, k < ts.length → (ps.getD k 0).sq = 1 → quatVar ps ts r (ts.getD k 0) = some (ps.getD k 0)) ∧
    (∀ q t, q.sq = 1 → (∀ i, i < ts.length → ps.getD i 0 = q) → quatVar ps ts r t = some q) := by
  have inj : ∀ w, w + 2 * r ≤ ts.length → Set.InjOn (fun i => ts.getD i 0) (Finset.Ico w (w + 2 * r) : Finset Nat) := by
    intro w hw i hi j hj h
    simp only [Finset.coe_Ico, Set.mem_Ico] at hi hj h
    rcases lt_trichotomy i j with h' | h' | h'
    · exact absurd h (inc i j h' (by omega)).ne
    · exact h'
    · exact absurd h.symm (inc j i h' (by omega)).ne
  constructor
  · intro k hk hq
    obtain ⟨w, hw, h1, h2⟩ := quatVar_spec ps ts r hr hn (ts.getD k 0)
    obtain ⟨g1, g2, _⟩ := h2 inc k hk le_rfl (fun h => inc _ _ (by omega) h)
    rw [h1]
    have e : ∀ c : Nat → ℝ, comp ts c w (2 * r) (ts.getD k 0) = c k := by
      intro c
      unfold comp
      exact Lagrange.eval_interpolate_at_node c (inj w hw) (Finset.mem_Ico.2 ⟨g1, g2⟩)
    rw [e, e, e, e]
    congr 1
    exact unitOf_unit _ hq
  · intro q t hq hall
    obtain ⟨w, hw, h1, _⟩ := quatVar_spec ps ts r hr hn t
    rw [h1]
    have e : ∀ (c : Nat → ℝ) (a : ℝ), (∀ i, i < ts.length → c i = a) → comp ts c w (2 * r) t = a := by
      intro c a hc
      unfold comp
      have : Polynomial.C a = Lagrange.interpolate (Finset.Ico w (w + 2 * r)) (fun i => ts.getD i 0) c := by
        refine Lagrange.eq_interpolate_of_eval_eq c (inj w hw) ?_ ?_
        · refine lt_of_le_of_lt Polynomial.degree_C_le ?_
          simp
          omega
        · intro i hi
          rw [Finset.mem_Ico] at hi
          rw [Polynomial.eval_C, hc i (by omega)]
      rw [← this, Polynomial.eval_C]
    rw [e _ q.w (fun i hi => by rw [hall i hi]), e _ q.x (fun i hi => by rw [hall i hi]), e _ q.y (fun i hi => by rw [hall i hi]),
      e _ q.z (fun i hi => by rw [hall i hi])]
    congr 1
    exact unitOf_unit _ hq

/-- Non-vacuity: four samples of a quarter turn. -/
example : quatVar [⟨1, 0, 0, 0⟩, ⟨1, 0, 0, 0⟩, ⟨0, 1, 0, 0⟩, ⟨0, 1, 0, 0⟩] [0, 1, 2, 4] 2 4 = some ⟨0, 1, 0, 0⟩ :=
  (quatVar_sample [⟨1, 0, 0, 0⟩, ⟨1, 0, 0, 0⟩, ⟨0, 1, 0, 0⟩, ⟨0, 1, 0, 0⟩] [0, 1, 2, 4] (fun i j h hj => by
    have hj' : j < 4 := hj
    have : (i = 0 ∧ j = 1) ∨ (i = 0 ∧ j = 2) ∨ (i = 0 ∧ j = 3) ∨ (i = 1 ∧ j = 2) ∨ (i = 1 ∧ j = 3) ∨ (i = 2 ∧ j = 3) := by omega
    rcases this with ⟨rfl, rfl⟩ | ⟨rfl, rfl⟩ | ⟨rfl, rfl⟩ | ⟨rfl, rfl⟩ | ⟨rfl, rfl⟩ | ⟨rfl, rfl⟩ <;> norm_num) 2 (by norm_num) (by simp)).1 3 (by simp) (by norm_num [Quat.sq])

/-- **C108, refuted part.** A quaternion and its opposite are the same rotation, but Lagrange interpolation does not treat them
so: the camera at rest, given by quaternions of alternating sign, has no orientation midway. -/
theorem quatVar_signs : ∃ (ps : List (Quat ℝ)) (ts : List ℝ) (r : Int) (t : ℝ), (∀ q ∈ ps, q.toM = M3.one) ∧ quatVar ps ts r t = some ⟨0, 0, 0, 0⟩ := by
  refine ⟨[⟨1, 0, 0, 0⟩, ⟨-1, 0, 0, 0⟩, ⟨1, 0, 0, 0⟩, ⟨-1, 0, 0, 0⟩], [0, 1, 2, 3], ((2 : Nat) : Int), 3 / 2, ?_, ?_⟩
  · intro q hq
    simp only [List.mem_cons, List.not_mem_nil, or_false] at hq
    rcases hq with rfl | rfl | rfl | rfl <;> (simp only [Quat.toM, M3.one]; norm_num)
  · have hw : varWindow [(0 : ℝ), 1, 2, 3] ((2 : Nat) : Int) (3 / 2) = some (0, 4) := by
      have hx : nextOf [(0 : ℝ), 1, 2, 3] (3 / 2) = ((1 : Nat) : Int) + 1 := by
        unfold nextOf
        norm_num [List.findIdx?_cons]
      rw [varWindow_next _ 2 _ 1 (by simp) hx]
      decide
    unfold quatVar
    rw [hw]
    have e : List.range' 0 (((4 : Int) - 0).toNat) = [0, 1, 2, 3] := by decide
    simp only [lagSum, prodExcept, e, Int.toNat_zero]
    norm_num

end Verif.Camera.Interp
