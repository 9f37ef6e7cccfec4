import Verif.Stereo.SGMEval

/-! The costs along a line: semi-global matching minimises the energy of the disparities along it. -/

namespace VW.SGM

/-! ### Specification -/

/-- The cost of a disparity at the `j`-th pixel of a line. -/
def localCost (M : Matcher) (d : Dir) (s : Pt) (j : Nat) (e : Pt) : Nat := costOf (M.range (along d s j)) (M.cost (along d s j)) e

/-- The jump penalty between the `j`-th pixel of a line and the next. -/
def jump (M : Matcher) (d : Dir) (s : Pt) (j : Nat) : Nat :=
  M.P.p2Mod (gradientOf (M.image (along d s (j + 1))) (M.image (along d s j)))

/-- The energy of giving the pixels `j0, …, j0 + n` of a line the disparities `f j0, …, f (j0 + n)`: the costs, and the penalties of the
changes. -/
def energy (M : Matcher) (d : Dir) (s : Pt) (f : Nat → Pt) (j0 : Nat) : Nat → Nat
  | 0 => localCost M d s j0 (f j0)
  | n + 1 => energy M d s f j0 n + penalty M.P.p1 (jump M d s (j0 + n)) (f (j0 + n)) (f (j0 + n + 1)) + localCost M d s (j0 + n + 1) (f (j0 + n + 1))

/-- The disparities are in the search ranges of the pixels. -/
def admissible (M : Matcher) (d : Dir) (s : Pt) (f : Nat → Pt) (j0 n : Nat) : Prop :=
  ∀ j, j0 ≤ j → j ≤ j0 + n → (M.range (along d s j)).has (f j)

/-- What the matcher is given is in order: penalties in range, search ranges inside that of the image, costs of eight bits. -/
structure Matcher.Ok (M : Matcher) : Prop where
  params : M.P.ok
  inside : ∀ q, (M.range q).inside M.P
  costs : ∀ q d, (M.range q).has d → costOf (M.range q) (M.cost q) d ≤ 255

/-- The cost of disparity `e` at the `k`-th pixel of a line, as `PixelPassTask` computes it. -/
def pathCost (M : Matcher) (d : Dir) (s : Pt) (k : Nat) (e : Pt) : Nat := costOf (M.range (along d s k)) (pass M d s k).1 e

/-! ### Proofs -/

theorem length_disps (b : Range) : b.disps.length = b.height * b.width := by
  unfold Range.disps
  rw [List.length_flatMap]
  simp

theorem disps_le_num (b : Range) : b.disps.length ≤ b.num.toNat := by
  rw [length_disps]
  unfold Range.height Range.width Range.num
  by_cases h1 : b.y1 - b.y0 + 1 ≤ 0
  · rw [Int.toNat_of_nonpos h1, Nat.zero_mul]; omega
  · by_cases h2 : b.x1 - b.x0 + 1 ≤ 0
    · rw [Int.toNat_of_nonpos h2, Nat.mul_zero]; omega
    · have : (b.x1 - b.x0 + 1) * (b.y1 - b.y0 + 1) = (((b.y1 - b.y0 + 1).toNat * (b.x1 - b.x0 + 1).toNat : Nat) : Int) := by
        push_cast
        rw [Int.toNat_of_nonneg (by omega), Int.toNat_of_nonneg (by omega), Int.mul_comm]
      rw [this]
      omega

theorem pass_buffer (M : Matcher) (d : Dir) (s : Pt) (k : Nat) : (pass M d s k).2 = fun _ => M.P.bad := by
  induction k with
  | zero => rfl
  | succ k ih =>
    simp only [pass]
    rw [ih]
    exact evaluate_buffer _ _ _ _ _ _

theorem pass_succ (M : Matcher) (d : Dir) (s : Pt) (k : Nat) :
    (pass M d s (k + 1)).1 = (evaluate M.P (M.range (along d s (k + 1))) (M.range (along d s k)) (pass M d s k).1 (M.cost (along d s (k + 1)))
      (gradientOf (M.image (along d s (k + 1))) (M.image (along d s k))) fun _ => M.P.bad).1 := by
  conv_lhs => simp only [pass]
  rw [pass_buffer]

theorem pathCost_zero (M : Matcher) (d : Dir) (s : Pt) (e : Pt) (he : (M.range (along d s 0)).has e) : pathCost M d s 0 e = localCost M d s 0 e := by
  unfold pathCost localCost
  have h0 : along d s 0 = s := by unfold along; simp
  rw [h0] at he
  rw [h0]
  obtain ⟨i, hi, rfl⟩ := List.getElem_of_mem ((mem_disps _ e).2 he)
  rw [costOf_getElem, costOf_getElem]
  have := disps_le_num (M.range s)
  unfold at'
  simp only [pass]
  rw [List.getD_eq_getElem?_getD, List.getElem?_map, List.getElem?_range (by omega)]
  rfl

/-- Every cost along a path is at least the cost of the pixel, and at most that plus p2. In particular it fits `uint16`. -/
theorem pathCost_bound (M : Matcher) (hM : M.Ok) (d : Dir) (s : Pt) (k : Nat) (e : Pt) (he : (M.range (along d s k)).has e) :
    localCost M d s k e ≤ pathCost M d s k e ∧ pathCost M d s k e ≤ localCost M d s k e + M.P.p2 ∧ pathCost M d s k e ≤ M.P.bad := by
  have hbad := bad_eq M.P hM.params
  induction k generalizing e with
  | zero =>
    have := hM.costs (along d s 0) e he
    rw [pathCost_zero M d s e he]
    unfold localCost at *
    omega
  | succ k ih =>
    have hl := hM.costs (along d s (k + 1)) e he
    have h := evaluate_bound M.P hM.params _ _ (hM.inside (along d s (k + 1))) (hM.inside (along d s k)) (pass M d s k).1
      (M.cost (along d s (k + 1))) (gradientOf (M.image (along d s (k + 1))) (M.image (along d s k))) (hM.costs _) (fun e' he' => (ih e' he').2.2) e he
    have h2 := (p2Mod_bounds M.P (gradientOf (M.image (along d s (k + 1))) (M.image (along d s k))) hM.params.1).2
    unfold pathCost localCost
    rw [pass_succ]
    omega

/-- The least cost of a pixel that has disparities. -/
theorem least_exists (b : Range) (c : Pt → Nat) (h : ∃ d, b.has d) : ∃ m, (∀ d, b.has d → m ≤ c d) ∧ ∃ d, b.has d ∧ c d = m := by
  classical
  obtain ⟨d0, h0⟩ := h
  have hex : ∃ m, ∃ d, b.has d ∧ c d = m := ⟨_, d0, h0, rfl⟩
  refine ⟨Nat.find hex, ?_, Nat.find_spec hex⟩
  intro d hd
  exact Nat.find_min' hex ⟨d, hd, rfl⟩

/-- The costs along a stretch of a line that starts with the line or after a pixel without disparities. -/
theorem stretch_start (M : Matcher) (hM : M.Ok) (d : Dir) (s : Pt) (j0 : Nat) (hj : j0 = 0 ∨ ∀ e, ¬ (M.range (along d s (j0 - 1))).has e)
    (e : Pt) (he : (M.range (along d s j0)).has e) : pathCost M d s j0 e = localCost M d s j0 e := by
  cases j0 with
  | zero => exact pathCost_zero M d s e he
  | succ j =>
    have hj : ∀ e, ¬ (M.range (along d s j)).has e := by
      rcases hj with h | h
      · omega
      · simpa using h
    unfold pathCost localCost
    rw [pass_succ]
    exact evaluate_restart M.P hM.params _ _ (hM.inside _) _ _ _ (hM.costs _) hj e he

/-- **The costs along a line are the least energies.** Take a stretch of pixels of a line that all have disparities, from the start of
the line or after a pixel that has none. At each step let some disparity be cheap enough that a jump from it costs no more than the value
that stands for no disparity. Then up to one constant for all disparities, the cost of a disparity of the last pixel is the least energy of
all admissible choices of disparities for the stretch that end in it. -/
theorem path_optimal (M : Matcher) (hM : M.Ok) (d : Dir) (s : Pt) (j0 n : Nat) (hj : j0 = 0 ∨ ∀ e, ¬ (M.range (along d s (j0 - 1))).has e)
    (hne : ∀ j, j0 ≤ j → j ≤ j0 + n → ∃ e, (M.range (along d s j)).has e)
    (hside : ∀ j, j0 ≤ j → j < j0 + n → ∃ e, (M.range (along d s j)).has e ∧ pathCost M d s j e + jump M d s j ≤ 255 + M.P.p2) :
    ∃ K, ∀ e, (M.range (along d s (j0 + n))).has e →
      (∃ f, admissible M d s f j0 n ∧ f (j0 + n) = e ∧ energy M d s f j0 n = pathCost M d s (j0 + n) e + K) ∧
      (∀ f, admissible M d s f j0 n → f (j0 + n) = e → pathCost M d s (j0 + n) e + K ≤ energy M d s f j0 n) := by
  have hbad := bad_eq M.P hM.params
  induction n with
  | zero =>
    refine ⟨0, fun e he => ⟨⟨fun _ => e, ?_, rfl, ?_⟩, ?_⟩⟩
    · intro j h1 h2
      have : j = j0 := by omega
      subst this
      exact he
    · simp only [energy]
      exact (stretch_start M hM d s j0 hj e he).symm
    · intro f _ hf
      simp only [energy, Nat.add_zero] at *
      rw [stretch_start M hM d s j0 hj e he, hf]
  | succ n ih =>
    obtain ⟨K, hK⟩ := ih (fun j h1 h2 => hne j h1 (by omega)) (fun j h1 h2 => hside j h1 (by omega))
    obtain ⟨m, hm, hm'⟩ := least_exists (M.range (along d s (j0 + n))) (pathCost M d s (j0 + n)) (hne _ (by omega) (by omega))
    have hsm : m + jump M d s (j0 + n) ≤ M.P.bad := by
      obtain ⟨e, he, h⟩ := hside (j0 + n) (by omega) (by omega)
      have := hm e he
      omega
    refine ⟨K + m, fun e he => ?_⟩
    have key := evaluate_spec M.P hM.params _ _ (hM.inside (along d s (j0 + n + 1))) (hM.inside (along d s (j0 + n))) (pass M d s (j0 + n)).1
      (M.cost (along d s (j0 + n + 1))) (gradientOf (M.image (along d s (j0 + n + 1))) (M.image (along d s (j0 + n)))) (hM.costs _)
      (fun e' he' => (pathCost_bound M hM d s (j0 + n) e' he').2.2) m hm hm' hsm e he
    rw [← pass_succ] at key
    change (∀ e', (M.range (along d s (j0 + n))).has e' → pathCost M d s (j0 + (n + 1)) e + m ≤
        localCost M d s (j0 + (n + 1)) e + (pathCost M d s (j0 + n) e' + penalty M.P.p1 (jump M d s (j0 + n)) e' e)) ∧
      (∃ e', (M.range (along d s (j0 + n))).has e' ∧ pathCost M d s (j0 + (n + 1)) e + m =
        localCost M d s (j0 + (n + 1)) e + (pathCost M d s (j0 + n) e' + penalty M.P.p1 (jump M d s (j0 + n)) e' e)) at key
    obtain ⟨k1, e', he', k2⟩ := key
    constructor
    · obtain ⟨f, hf, hfe, hE⟩ := (hK e' he').1
      refine ⟨fun j => if j = j0 + n + 1 then e else f j, ?_, ?_, ?_⟩
      · intro j h1 h2
        by_cases h : j = j0 + n + 1
        · simp only [h, if_true]; exact he
        · simp only [h, if_false]
          exact hf j h1 (by omega)
      · simp [Nat.add_assoc]
      · have hcong : ∀ i, i ≤ n → energy M d s (fun j => if j = j0 + n + 1 then e else f j) j0 i = energy M d s f j0 i := by
          intro i
          induction i with
          | zero =>
            intro _
            simp only [energy]
            rw [if_neg (by omega)]
          | succ i ihi =>
            intro hi
            simp only [energy]
            rw [ihi (by omega), if_neg (by omega), if_neg (by omega)]
        simp only [energy]
        rw [hcong n (Nat.le_refl _), if_neg (by omega), if_pos trivial, hfe, hE]
        have : j0 + (n + 1) = j0 + n + 1 := rfl
        rw [this] at k2 ⊢
        omega
    · intro f hf hfe
      have hfe' : f (j0 + n + 1) = e := hfe
      simp only [energy]
      have h1 := (hK (f (j0 + n)) (hf _ (by omega) (by omega))).2 f (fun j a b => hf j a (by omega)) rfl
      have h2 := k1 (f (j0 + n)) (hf _ (by omega) (by omega))
      rw [hfe']
      have : j0 + (n + 1) = j0 + n + 1 := rfl
      rw [this] at h2
      rw [this]
      omega

/-- **Growing or equal search ranges.** If along the stretch each pixel can have every disparity of the one before, no further condition is
needed. -/
theorem path_optimal_nested (M : Matcher) (hM : M.Ok) (d : Dir) (s : Pt) (j0 n : Nat)
    (hj : j0 = 0 ∨ ∀ e, ¬ (M.range (along d s (j0 - 1))).has e) (hne : ∃ e, (M.range (along d s j0)).has e)
    (hsub : ∀ j, j0 ≤ j → j < j0 + n → ∀ e, (M.range (along d s j)).has e → (M.range (along d s (j + 1))).has e) :
    ∃ K, ∀ e, (M.range (along d s (j0 + n))).has e →
      (∃ f, admissible M d s f j0 n ∧ f (j0 + n) = e ∧ energy M d s f j0 n = pathCost M d s (j0 + n) e + K) ∧
      (∀ f, admissible M d s f j0 n → f (j0 + n) = e → pathCost M d s (j0 + n) e + K ≤ energy M d s f j0 n) := by
  have hbad := bad_eq M.P hM.params
  have cheap : ∀ i, i ≤ n → ∃ e, (M.range (along d s (j0 + i))).has e ∧ pathCost M d s (j0 + i) e ≤ 255 := by
    intro i
    induction i with
    | zero =>
      intro _
      obtain ⟨e, he⟩ := hne
      refine ⟨e, he, ?_⟩
      rw [Nat.add_zero, stretch_start M hM d s j0 hj e he]
      exact hM.costs _ e he
    | succ i ih =>
      intro hi
      obtain ⟨e1, he1, hc1⟩ := ih (by omega)
      obtain ⟨m, hm, e, he, hm'⟩ := least_exists (M.range (along d s (j0 + i))) (pathCost M d s (j0 + i)) ⟨e1, he1⟩
      have hm1 := hm e1 he1
      have he2 : (M.range (along d s (j0 + i + 1))).has e := hsub (j0 + i) (by omega) (by omega) e he
      have hj2 := (p2Mod_bounds M.P (gradientOf (M.image (along d s (j0 + i + 1))) (M.image (along d s (j0 + i)))) hM.params.1).2
      have key := (evaluate_spec M.P hM.params _ _ (hM.inside (along d s (j0 + i + 1))) (hM.inside (along d s (j0 + i))) (pass M d s (j0 + i)).1
        (M.cost (along d s (j0 + i + 1))) (gradientOf (M.image (along d s (j0 + i + 1))) (M.image (along d s (j0 + i)))) (hM.costs _)
        (fun e' he' => (pathCost_bound M hM d s (j0 + i) e' he').2.2) m hm ⟨e, he, hm'⟩ (by omega) e he2).1 e he
      rw [← pass_succ] at key
      have hl := hM.costs _ e he2
      refine ⟨e, he2, ?_⟩
      unfold penalty at key
      rw [if_pos rfl] at key
      change pathCost M d s (j0 + i + 1) e + m ≤ _ + (pathCost M d s (j0 + i) e + 0) at key
      change pathCost M d s (j0 + i + 1) e ≤ 255
      omega
  refine path_optimal M hM d s j0 n hj ?_ ?_
  · intro j h1 h2
    obtain ⟨e, he, _⟩ := cheap (j - j0) (by omega)
    rw [show j0 + (j - j0) = j by omega] at he
    exact ⟨e, he⟩
  · intro j h1 h2
    obtain ⟨e, he, hc⟩ := cheap (j - j0) (by omega)
    rw [show j0 + (j - j0) = j by omega] at he hc
    have hj2 := (p2Mod_bounds M.P (gradientOf (M.image (along d s (j + 1))) (M.image (along d s j))) hM.params.1).2
    refine ⟨e, he, ?_⟩
    unfold jump
    omega

end VW.SGM
