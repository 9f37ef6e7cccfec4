import Verif.Camera.Stereo
import Verif.Math.InverseProps

/-
C95.  Triangulation.
-/

namespace Verif.Camera

set_option linter.unusedSectionVars false

variable {K : Type} [Field K] [LinearOrder K] [IsStrictOrderedRing K]

/-! ## Two rays -/

/-- The point and error of two lines: the middle of the shortest segment between them, and the vector along it from the
second line to the first. -/
def IsMidpoint (d0 c0 d1 c1 p e : V3 K) : Prop :=
  ∃ s t : K, e = (c0 + s * d0) - (c1 + t * d1) ∧ (2 : K) * p = (c0 + s * d0) + (c1 + t * d1) ∧
    ∀ s' t' : K, sq e ≤ sq ((c0 + s' * d0) - (c1 + t' * d1)) ∧
      (sq ((c0 + s' * d0) - (c1 + t' * d1)) = sq e → s' = s ∧ t' = t)

theorem dot_v2 (d0 d1 : V3 K) : dot (cross (cross d0 d1) d1) d0 = -sq (cross d0 d1) := by
  unfold sq dot cross; ring

theorem dot_v1 (d0 d1 : V3 K) : dot (cross (cross d0 d1) d0) d1 = sq (cross d0 d1) := by
  unfold sq dot cross; ring

/-- If the connecting vector is perpendicular to both lines, the point is the middle. -/
theorem isMidpoint_of_perp (d0 c0 d1 c1 : V3 K) (s t : K) (hc : cross d0 d1 ≠ 0)
    (h0 : dot ((c0 + s * d0) - (c1 + t * d1)) d0 = 0) (h1 : dot ((c0 + s * d0) - (c1 + t * d1)) d1 = 0) :
    IsMidpoint d0 c0 d1 c1 ((1 / 2 : K) * ((c0 + s * d0) + (c1 + t * d1))) ((c0 + s * d0) - (c1 + t * d1)) := by
  have hN := sq_pos _ hc
  refine ⟨s, t, rfl, by ext <;> simp, fun s' t' => ?_⟩
  have key : sq ((c0 + s' * d0) - (c1 + t' * d1)) =
      sq ((c0 + s * d0) - (c1 + t * d1)) + sq ((s' - s) * d0 - (t' - t) * d1) := by
    unfold sq dot at *
    simp only [add_x, add_y, add_z, sub_x, sub_y, sub_z, smul_x, smul_y, smul_z] at *
    linear_combination 2 * (s' - s) * h0 - 2 * (t' - t) * h1
  refine ⟨by rw [key]; linarith [sq_nonneg' ((s' - s) * d0 - (t' - t) * d1)], fun heq => ?_⟩
  have hz : (s' - s) * d0 - (t' - t) * d1 = 0 := (sq_eq_zero _).1 (by rw [key] at heq; linarith)
  have hx := congrArg V3.x hz
  have hy := congrArg V3.y hz
  have hzz := congrArg V3.z hz
  simp only [sub_x, sub_y, sub_z, smul_x, smul_y, smul_z, zero_x, zero_y, zero_z] at hx hy hzz
  have e1 : (s' - s) * sq (cross d0 d1) = 0 := by
    unfold sq dot cross
    simp only
    linear_combination (d1.z * (d0.z * d1.x - d0.x * d1.z) * -1 + d1.y * (d0.x * d1.y - d0.y * d1.x)) * hx +
      (d1.z * (d0.y * d1.z - d0.z * d1.y) - d1.x * (d0.x * d1.y - d0.y * d1.x)) * hy +
      (d1.x * (d0.z * d1.x - d0.x * d1.z) - d1.y * (d0.y * d1.z - d0.z * d1.y)) * hzz
  have e2 : (t' - t) * sq (cross d0 d1) = 0 := by
    unfold sq dot cross
    simp only
    linear_combination (d0.z * (d0.z * d1.x - d0.x * d1.z) * -1 + d0.y * (d0.x * d1.y - d0.y * d1.x)) * hx +
      (d0.z * (d0.y * d1.z - d0.z * d1.y) - d0.x * (d0.x * d1.y - d0.y * d1.x)) * hy +
      (d0.x * (d0.z * d1.x - d0.x * d1.z) - d0.y * (d0.y * d1.z - d0.z * d1.y)) * hzz
  have e1' := (mul_eq_zero.1 e1).resolve_right hN.ne'
  have e2' := (mul_eq_zero.1 e2).resolve_right hN.ne'
  exact ⟨by linarith, by linarith⟩

/-- The middle is unique. -/
theorem isMidpoint_unique (d0 c0 d1 c1 p e p' e' : V3 K) (h : IsMidpoint d0 c0 d1 c1 p e) (h' : IsMidpoint d0 c0 d1 c1 p' e') :
    p = p' ∧ e = e' := by
  obtain ⟨s, t, he, hp, hm⟩ := h
  obtain ⟨s', t', he', hp', hm'⟩ := h'
  have h1 := (hm s' t').1
  have h2 := (hm' s t).1
  rw [← he'] at h1
  rw [← he] at h2
  obtain ⟨rfl, rfl⟩ := (hm s' t').2 (by rw [← he']; exact le_antisymm h2 h1)
  refine ⟨?_, he.trans he'.symm⟩
  have : (2 : K) * p = (2 : K) * p' := hp.trans hp'.symm
  have hx := congrArg V3.x this
  have hy := congrArg V3.y this
  have hz := congrArg V3.z this
  simp only [smul_x, smul_y, smul_z] at hx hy hz
  ext <;> linarith

/-- **C95.** Triangulation of two rays: it gives a point exactly if the directions are not parallel, and that is the middle
of the shortest segment between the two lines, the error vector being the segment. -/
theorem pair_spec (d0 c0 d1 c1 : V3 K) :
    (triangulatePair d0 c0 d1 c1 = none ↔ cross d0 d1 = 0) ∧
    (∀ p e, triangulatePair d0 c0 d1 c1 = some (p, e) → IsMidpoint d0 c0 d1 c1 p e ∧ dot e d0 = 0 ∧ dot e d1 = 0) := by
  have hiff : (dot (cross (cross d0 d1) d1) d0 = 0 ∨ dot (cross (cross d0 d1) d0) d1 = 0) ↔ cross d0 d1 = 0 := by
    rw [dot_v2, dot_v1, neg_eq_zero, or_self, sq_eq_zero]
  unfold triangulatePair
  simp only
  by_cases hc : cross d0 d1 = 0
  · rw [if_pos (hiff.2 hc)]
    exact ⟨⟨fun _ => hc, fun _ => rfl⟩, fun p e h => (by cases h)⟩
  · rw [if_neg (fun h => hc (hiff.1 h))]
    refine ⟨⟨fun h => (by cases h), fun h => absurd h hc⟩, fun p e h => ?_⟩
    simp only [Option.some.injEq, Prod.mk.injEq] at h
    obtain ⟨rfl, rfl⟩ := h
    have hN := (sq_pos _ hc).ne'
    rw [dot_v2, dot_v1]
    set s := dot (cross (cross d0 d1) d1) (c1 - c0) / -sq (cross d0 d1) with hs
    set t := dot (cross (cross d0 d1) d0) (c0 - c1) / sq (cross d0 d1) with ht
    have hs' : s * sq (cross d0 d1) = -dot (cross (cross d0 d1) d1) (c1 - c0) := by
      rw [hs, div_neg, neg_mul, div_mul_cancel₀ _ hN]
    have ht' : t * sq (cross d0 d1) = dot (cross (cross d0 d1) d0) (c0 - c1) := by
      rw [ht, div_mul_cancel₀ _ hN]
    have h0 : dot ((c0 + s * d0) - (c1 + t * d1)) d0 = 0 := by
      refine (mul_eq_zero.1 (?_ : dot ((c0 + s * d0) - (c1 + t * d1)) d0 * sq (cross d0 d1) = 0)).resolve_right hN
      clear_value s t
      unfold sq dot cross at *
      simp only [add_x, add_y, add_z, sub_x, sub_y, sub_z, smul_x, smul_y, smul_z] at *
      linear_combination (d0.x * d0.x + d0.y * d0.y + d0.z * d0.z) * hs' - (d0.x * d1.x + d0.y * d1.y + d0.z * d1.z) * ht'
    have h1 : dot ((c0 + s * d0) - (c1 + t * d1)) d1 = 0 := by
      refine (mul_eq_zero.1 (?_ : dot ((c0 + s * d0) - (c1 + t * d1)) d1 * sq (cross d0 d1) = 0)).resolve_right hN
      clear_value s t
      unfold sq dot cross at *
      simp only [add_x, add_y, add_z, sub_x, sub_y, sub_z, smul_x, smul_y, smul_z] at *
      linear_combination (d0.x * d1.x + d0.y * d1.y + d0.z * d1.z) * hs' - (d1.x * d1.x + d1.y * d1.y + d1.z * d1.z) * ht'
    exact ⟨isMidpoint_of_perp d0 c0 d1 c1 s t hc h0 h1, h0, h1⟩

/-- A triangulated point exists for directions that are not parallel. -/
theorem pair_some (d0 c0 d1 c1 : V3 K) (hc : cross d0 d1 ≠ 0) : ∃ p e, triangulatePair d0 c0 d1 c1 = some (p, e) := by
  cases h : triangulatePair d0 c0 d1 c1 with
  | none => exact absurd ((pair_spec d0 c0 d1 c1).1.1 h) hc
  | some q => exact ⟨q.1, q.2, rfl⟩

/-- **C95.** Lines that meet give their common point without error. -/
theorem pair_exact (d0 c0 d1 c1 X : V3 K) (hc : cross d0 d1 ≠ 0) (s t : K) (h0 : X = c0 + s * d0) (h1 : X = c1 + t * d1) :
    triangulatePair d0 c0 d1 c1 = some (X, 0) := by
  obtain ⟨p, e, h⟩ := pair_some d0 c0 d1 c1 hc
  have hm := ((pair_spec d0 c0 d1 c1).2 p e h).1
  have hz : (c0 + s * d0) - (c1 + t * d1) = 0 := by rw [← h0, ← h1]; ext <;> simp
  have hm' := isMidpoint_of_perp d0 c0 d1 c1 s t hc (by rw [hz]; simp [dot]) (by rw [hz]; simp [dot])
  obtain ⟨rfl, rfl⟩ := isMidpoint_unique d0 c0 d1 c1 _ _ _ _ hm hm'
  rw [h, hz, ← h0, ← h1]
  congr 2
  ext <;> simp <;> ring

/-- **C95.** Exchanging the rays gives the same point and the opposite error. -/
theorem pair_swap (d0 c0 d1 c1 p e : V3 K) (h : triangulatePair d0 c0 d1 c1 = some (p, e)) :
    triangulatePair d1 c1 d0 c0 = some (p, -e) := by
  have hc : cross d0 d1 ≠ 0 := fun h' => by rw [(pair_spec d0 c0 d1 c1).1.2 h'] at h; cases h
  have hc' : cross d1 d0 ≠ 0 := fun h' => hc (by
    have hx := congrArg V3.x h'; have hy := congrArg V3.y h'; have hz := congrArg V3.z h'
    unfold cross at *
    simp only [zero_x, zero_y, zero_z] at hx hy hz
    ext
    · simp only [zero_x]; linarith
    · simp only [zero_y]; linarith
    · simp only [zero_z]; linarith)
  obtain ⟨q, f, h'⟩ := pair_some d1 c1 d0 c0 hc'
  obtain ⟨⟨s, t, he, hp, hm⟩, he0, he1⟩ := (pair_spec d0 c0 d1 c1).2 p e h
  have hm' := ((pair_spec d1 c1 d0 c0).2 q f h').1
  have flip : ∀ a b : V3 K, sq (a - b) = sq (b - a) := by intro a b; simp only [sq, dot, sub_x, sub_y, sub_z]; ring
  have hm2 : IsMidpoint d1 c1 d0 c0 p (-e) := by
    refine ⟨t, s, ?_, ?_, fun s' t' => ?_⟩
    · rw [he]; ext <;> simp
    · rw [hp]; ext <;> simp <;> ring
    · have := hm t' s'
      have hneg : sq (-e) = sq e := by simp [sq, dot]
      rw [hneg, flip]
      exact ⟨this.1, fun hh => (this.2 hh).symm⟩
  obtain ⟨rfl, rfl⟩ := isMidpoint_unique d1 c1 d0 c0 _ _ _ _ hm' hm2
  exact h'

/-- **C95.** The length of the directions does not matter. -/
theorem pair_scale (d0 c0 d1 c1 : V3 K) (a b : K) (ha : a ≠ 0) (hb : b ≠ 0) :
    triangulatePair (a * d0) c0 (b * d1) c1 = triangulatePair d0 c0 d1 c1 := by
  have hcr : cross (a * d0) (b * d1) = (a * b) * cross d0 d1 := by
    unfold cross; ext <;> simp only [smul_x, smul_y, smul_z] <;> ring
  by_cases hc : cross d0 d1 = 0
  · rw [(pair_spec d0 c0 d1 c1).1.2 hc, (pair_spec _ c0 _ c1).1.2]
    rw [hcr, hc]; ext <;> simp
  · have hc' : cross (a * d0) (b * d1) ≠ 0 := by
      intro h
      rw [hcr] at h
      apply hc
      have hab : a * b ≠ 0 := mul_ne_zero ha hb
      have hx := congrArg V3.x h; have hy := congrArg V3.y h; have hz := congrArg V3.z h
      simp only [smul_x, smul_y, smul_z, zero_x, zero_y, zero_z] at hx hy hz
      exact V3.ext ((mul_eq_zero.1 hx).resolve_left hab) ((mul_eq_zero.1 hy).resolve_left hab)
        ((mul_eq_zero.1 hz).resolve_left hab)
    obtain ⟨p, e, h⟩ := pair_some d0 c0 d1 c1 hc
    obtain ⟨q, f, h'⟩ := pair_some (a * d0) c0 (b * d1) c1 hc'
    obtain ⟨⟨s, t, he, hp, hm⟩, -, -⟩ := (pair_spec d0 c0 d1 c1).2 p e h
    have hm' := ((pair_spec _ c0 _ c1).2 q f h').1
    have assoc : ∀ (u v : K) (w : V3 K), u * (v * w) = (u * v) * w := by
      intro u v w; ext <;> simp only [smul_x, smul_y, smul_z] <;> ring
    have hm2 : IsMidpoint (a * d0) c0 (b * d1) c1 p e := by
      refine ⟨s / a, t / b, ?_, ?_, fun s' t' => ?_⟩
      · rw [assoc, assoc, div_mul_cancel₀ _ ha, div_mul_cancel₀ _ hb]; exact he
      · rw [assoc, assoc, div_mul_cancel₀ _ ha, div_mul_cancel₀ _ hb]; exact hp
      · rw [assoc, assoc]
        have := hm (s' * a) (t' * b)
        refine ⟨this.1, fun hh => ?_⟩
        obtain ⟨h1, h2⟩ := this.2 hh
        exact ⟨by rw [← h1, mul_div_cancel_right₀ _ ha], by rw [← h2, mul_div_cancel_right₀ _ hb]⟩
    obtain ⟨rfl, rfl⟩ := isMidpoint_unique _ _ _ _ _ _ _ _ hm' hm2
    rw [h, h']

/-! ## Several rays -/

theorem fold_mat (rays : List (Ray K)) (s : Normal K) (u v : V3 K) :
    dot u (mulVec3 (rays.foldl normalStep s).mat v) =
      dot u (mulVec3 s.mat v) + (rays.map (fun r => dot u v - dot u r.1 * dot r.1 v)).sum := by
  induction rays generalizing s with
  | nil => simp
  | cons r l ih =>
    rw [List.foldl_cons, ih, List.map_cons, List.sum_cons]
    simp only [dot, mulVec3, Normal.mat, normalStep]
    ring

theorem fold_rhs (rays : List (Ray K)) (s : Normal K) (u : V3 K) :
    dot u (rays.foldl normalStep s).r = dot u s.r + (rays.map (fun r => dot u r.2 - dot u r.1 * dot r.1 r.2)).sum := by
  induction rays generalizing s with
  | nil => simp
  | cons r l ih =>
    rw [List.foldl_cons, ih, List.map_cons, List.sum_cons]
    simp only [dot, normalStep]
    ring

/-- The matrix of the loop. -/
theorem mat_eq (rays : List (Ray K)) (u v : V3 K) :
    dot u (mulVec3 (normal rays).mat v) = (rays.map (fun r => dot u v - dot u r.1 * dot r.1 v)).sum := by
  unfold normal
  rw [fold_mat]
  simp [dot, mulVec3, Normal.mat]

/-- The right-hand side of the loop. -/
theorem rhs_eq (rays : List (Ray K)) (u : V3 K) :
    dot u (normal rays).r = (rays.map (fun r => dot u r.2 - dot u r.1 * dot r.1 r.2)).sum := by
  unfold normal
  rw [fold_rhs]
  simp [dot]

/-- Directions of length one. -/
def Units (rays : List (Ray K)) : Prop := ∀ r ∈ rays, sq r.1 = 1

/-- The sum of the squares of the distances to the rays. -/
def cost (rays : List (Ray K)) (p : V3 K) : K := (rays.map (rayDistSq p)).sum

/-- **C95.** The distance that the sums are made of is the distance to the line: no point of the line is closer, and one
has this distance. -/
theorem rayDistSq_spec (p : V3 K) (r : Ray K) (hu : sq r.1 = 1) :
    (∀ s : K, rayDistSq p r ≤ sq (p - (r.2 + s * r.1))) ∧ ∃ s : K, rayDistSq p r = sq (p - (r.2 + s * r.1)) := by
  have key : ∀ s : K, sq (p - (r.2 + s * r.1)) = rayDistSq p r + (s - dot r.1 (p - r.2)) * (s - dot r.1 (p - r.2)) := by
    intro s
    unfold sq dot at hu
    unfold rayDistSq sq dot
    simp only [add_x, add_y, add_z, sub_x, sub_y, sub_z, smul_x, smul_y, smul_z]
    linear_combination (s * s) * hu
  constructor
  · intro s
    rw [key]
    linarith [mul_self_nonneg (s - dot r.1 (p - r.2))]
  · exact ⟨dot r.1 (p - r.2), by rw [key]; ring⟩

theorem rayDistSq_nonneg (p : V3 K) (r : Ray K) (hu : sq r.1 = 1) : 0 ≤ rayDistSq p r := by
  obtain ⟨s, hs⟩ := (rayDistSq_spec p r hu).2
  rw [hs]; exact sq_nonneg' _

theorem cost_nonneg (rays : List (Ray K)) (p : V3 K) (hu : Units rays) : 0 ≤ cost rays p := by
  unfold cost
  refine List.sum_nonneg fun x hx => ?_
  obtain ⟨r, hr, rfl⟩ := List.mem_map.1 hx
  exact rayDistSq_nonneg p r (hu r hr)

theorem sum_add_map {α : Type} (l : List α) (f g : α → K) : (l.map (fun a => f a + g a)).sum = (l.map f).sum + (l.map g).sum := by
  induction l with
  | nil => simp
  | cons a l ih => simp only [List.map_cons, List.sum_cons, ih]; ring

/-- The difference of two costs where the normal equations hold at the first point. -/
theorem cost_diff (rays : List (Ray K)) (p q : V3 K) (hp : mulVec3 (normal rays).mat p = (normal rays).r) (hu : Units rays) :
    cost rays q = cost rays p + (rays.map (fun r => sq (cross (q - p) r.1))).sum := by
  have h1 : dot (q - p) (mulVec3 (normal rays).mat p) = dot (q - p) (normal rays).r := by rw [hp]
  rw [mat_eq, rhs_eq] at h1
  have h2 : (rays.map (rayDistSq q)).sum = (rays.map (fun r => rayDistSq p r + (sq (cross (q - p) r.1) +
      (2 * (dot (q - p) p - dot (q - p) r.1 * dot r.1 p) + -2 * (dot (q - p) r.2 - dot (q - p) r.1 * dot r.1 r.2))))).sum := by
    refine congrArg List.sum (List.map_congr_left fun r hr => ?_)
    have := hu r hr
    unfold sq dot at this
    unfold rayDistSq sq dot cross
    simp only [sub_x, sub_y, sub_z]
    linear_combination ((q.x - p.x) * (q.x - p.x) + (q.y - p.y) * (q.y - p.y) + (q.z - p.z) * (q.z - p.z)) * (-1 : K) * this
  unfold cost
  rw [h2, sum_add_map, sum_add_map, sum_add_map, List.sum_map_mul_left, List.sum_map_mul_left, h1]
  ring

/-- Not all directions are parallel to one vector. -/
def Spread (rays : List (Ray K)) : Prop := ∀ v : V3 K, (∀ r ∈ rays, cross v r.1 = 0) → v = 0

/-- Two directions that are not parallel are enough. -/
theorem spread_of_pair (rays : List (Ray K)) (r0 r1 : Ray K) (h0 : r0 ∈ rays) (h1 : r1 ∈ rays) (hc : cross r0.1 r1.1 ≠ 0) :
    Spread rays := by
  intro v hv
  have a := hv r0 h0
  have b := hv r1 h1
  have ax := congrArg V3.x a; have ay := congrArg V3.y a; have az := congrArg V3.z a
  have bx := congrArg V3.x b; have by' := congrArg V3.y b; have bz := congrArg V3.z b
  simp only [cross, zero_x, zero_y, zero_z] at ax ay az bx by' bz
  -- v is a multiple of d0
  have hx : v.x * sq r0.1 = dot r0.1 v * r0.1.x := by
    unfold sq dot; linear_combination r0.1.y * az - r0.1.z * ay
  have hy : v.y * sq r0.1 = dot r0.1 v * r0.1.y := by
    unfold sq dot; linear_combination r0.1.z * ax - r0.1.x * az
  have hz : v.z * sq r0.1 = dot r0.1 v * r0.1.z := by
    unfold sq dot; linear_combination r0.1.x * ay - r0.1.y * ax
  have hs : dot r0.1 v = 0 := by
    by_contra hne
    apply hc
    refine V3.ext ((mul_eq_zero.1 (?_ : dot r0.1 v * _ = 0)).resolve_left hne)
      ((mul_eq_zero.1 (?_ : dot r0.1 v * _ = 0)).resolve_left hne) ((mul_eq_zero.1 (?_ : dot r0.1 v * _ = 0)).resolve_left hne)
    · simp only [cross]; linear_combination -r1.1.z * hy + r1.1.y * hz + sq r0.1 * bx
    · simp only [cross]; linear_combination -r1.1.x * hz + r1.1.z * hx + sq r0.1 * by'
    · simp only [cross]; linear_combination -r1.1.y * hx + r1.1.x * hy + sq r0.1 * bz
  have hd : sq r0.1 ≠ 0 := by
    intro h
    apply hc
    rw [(sq_eq_zero _).1 h]
    ext <;> simp [cross]
  rw [hs, zero_mul] at hx hy hz
  exact V3.ext ((mul_eq_zero.1 hx).resolve_right hd) ((mul_eq_zero.1 hy).resolve_right hd) ((mul_eq_zero.1 hz).resolve_right hd)

/-- Components by products with the axes. -/
theorem ext_dot (a b : V3 K) (h : ∀ u, dot u a = dot u b) : a = b := by
  have h1 := h ⟨1, 0, 0⟩
  have h2 := h ⟨0, 1, 0⟩
  have h3 := h ⟨0, 0, 1⟩
  simp only [dot, one_mul, zero_mul, add_zero, zero_add] at h1 h2 h3
  exact V3.ext h1 h2 h3

/-- The matrix has no kernel exactly if the directions are not all parallel. -/
theorem kernel_iff (rays : List (Ray K)) (hu : Units rays) (v : V3 K) :
    mulVec3 (normal rays).mat v = 0 ↔ ∀ r ∈ rays, cross v r.1 = 0 := by
  have hsum : dot v (mulVec3 (normal rays).mat v) = (rays.map (fun r => sq (cross v r.1))).sum := by
    rw [mat_eq]
    refine congrArg List.sum (List.map_congr_left fun r hr => ?_)
    have := hu r hr
    unfold sq dot at this
    unfold sq dot cross
    simp only
    linear_combination -(v.x * v.x + v.y * v.y + v.z * v.z) * this
  constructor
  · intro h r hr
    rw [h] at hsum
    have hz : (rays.map (fun r => sq (cross v r.1))).sum = 0 := by rw [← hsum]; simp [dot]
    have hle : sq (cross v r.1) ≤ (rays.map (fun r => sq (cross v r.1))).sum :=
      List.single_le_sum (fun x hx => by obtain ⟨r, -, rfl⟩ := List.mem_map.1 hx; exact sq_nonneg' _) _ (List.mem_map.2 ⟨r, hr, rfl⟩)
    exact (sq_eq_zero _).1 (le_antisymm (by rw [← hz]; exact hle) (sq_nonneg' _))
  · intro h
    refine ext_dot _ _ fun u => ?_
    rw [mat_eq]
    have : (rays.map (fun r => dot u v - dot u r.1 * dot r.1 v)) = rays.map (fun _ => (0 : K)) := by
      refine List.map_congr_left fun r hr => ?_
      have h1 := hu r hr
      have hc := h r hr
      have cx := congrArg V3.x hc; have cy := congrArg V3.y hc; have cz := congrArg V3.z hc
      simp only [cross, zero_x, zero_y, zero_z] at cx cy cz
      unfold sq dot at h1
      unfold dot
      linear_combination -(u.x * v.x + u.y * v.y + u.z * v.z) * h1 + (u.y * r.1.z - u.z * r.1.y) * cx +
        (u.z * r.1.x - u.x * r.1.z) * cy + (u.x * r.1.y - u.y * r.1.x) * cz
    rw [this]
    simp [dot]

theorem toM_mulVec (A : VW.Matrix.Mat K) (v : Fin 3 → K) (i : Fin 3) :
    Matrix.mulVec (VW.Matrix.toM 3 A) v i = A i 0 * v 0 + A i 1 * v 1 + A i 2 * v 2 := by
  simp only [Matrix.mulVec, dotProduct, Fin.sum_univ_three, VW.Matrix.toM]
  rfl

/-- The inverse exists exactly if the directions are not all parallel. -/
theorem inverse_none_iff (rays : List (Ray K)) (hu : Units rays) :
    VW.Matrix.inverse 3 (normal rays).mat = none ↔ ¬ Spread rays := by
  rw [(VW.Matrix.inverse_correct 3 (normal rays).mat).2, ← Matrix.exists_mulVec_eq_zero_iff]
  constructor
  · rintro ⟨v, hv, h0⟩ hsp
    apply hv
    have hk : mulVec3 (normal rays).mat ⟨v 0, v 1, v 2⟩ = 0 := by
      have a := congrFun h0 0
      have b := congrFun h0 1
      have c := congrFun h0 2
      rw [toM_mulVec] at a b c
      exact V3.ext a b c
    have := hsp _ ((kernel_iff rays hu _).1 hk)
    have ex := congrArg V3.x this; have ey := congrArg V3.y this; have ez := congrArg V3.z this
    funext i
    fin_cases i
    · exact ex
    · exact ey
    · exact ez
  · intro hsp
    unfold Spread at hsp
    push Not at hsp
    obtain ⟨v, hv, hne⟩ := hsp
    have hk := (kernel_iff rays hu v).2 hv
    refine ⟨![v.x, v.y, v.z], ?_, ?_⟩
    · intro h
      apply hne
      exact V3.ext (congrFun h 0) (congrFun h 1) (congrFun h 2)
    · funext i
      rw [toM_mulVec]
      have a := congrArg V3.x hk; have b := congrArg V3.y hk; have c := congrArg V3.z hk
      fin_cases i
      · exact a
      · exact b
      · exact c

/-- What the inverse does. -/
theorem inverse_solves (A B : VW.Matrix.Mat K) (h : VW.Matrix.inverse 3 A = some B) (v : V3 K) :
    mulVec3 A (mulVec3 B v) = v ∧ mulVec3 B (mulVec3 A v) = v := by
  obtain ⟨h1, h2⟩ := (VW.Matrix.inverse_correct 3 A).1 B h
  have key : ∀ (X Y : VW.Matrix.Mat K), VW.Matrix.toM 3 X * VW.Matrix.toM 3 Y = 1 → mulVec3 X (mulVec3 Y v) = v := by
    intro X Y h
    have e : ∀ i : Fin 3, Matrix.mulVec (VW.Matrix.toM 3 X) (Matrix.mulVec (VW.Matrix.toM 3 Y) ![v.x, v.y, v.z]) i =
        (![v.x, v.y, v.z] : Fin 3 → K) i := by
      intro i
      rw [Matrix.mulVec_mulVec, h, Matrix.one_mulVec]
    have e0 := e 0
    have e1 := e 1
    have e2 := e 2
    rw [toM_mulVec, toM_mulVec, toM_mulVec, toM_mulVec] at e0 e1 e2
    exact V3.ext e0 e1 e2
  exact ⟨key A B h1, key B A h2⟩

/-- **C95.** Triangulation of several rays with unit directions: it fails exactly if all directions are parallel; else the
point is the one with the least sum of squared distances to the lines, and the only one. -/
theorem multi_spec (sqrt : K → K) (rays : List (Ray K)) (hu : Units rays) :
    (triangulateMulti sqrt rays = .mathErr ↔ ¬ Spread rays) ∧
    (∀ p e, triangulateMulti sqrt rays = .ok p e → e = ⟨multiError sqrt rays p, 0, 0⟩ ∧
      ∀ q, cost rays p ≤ cost rays q ∧ (cost rays q = cost rays p → q = p)) := by
  have hn := inverse_none_iff rays hu
  unfold triangulateMulti
  cases hB : VW.Matrix.inverse 3 (normal rays).mat with
  | none =>
    rw [hB] at hn
    exact ⟨⟨fun _ => hn.1 rfl, fun _ => rfl⟩, fun p e h => (by cases h)⟩
  | some B =>
    have hsp : Spread rays := by
      by_contra h
      rw [hn.2 h] at hB; cases hB
    simp only
    refine ⟨⟨fun h => (by cases h), fun h => absurd hsp h⟩, fun p e h => ?_⟩
    simp only [Out.ok.injEq] at h
    obtain ⟨rfl, rfl⟩ := h
    refine ⟨rfl, fun q => ?_⟩
    have hd := cost_diff rays (mulVec3 B (normal rays).r) q ((inverse_solves _ _ hB _).1) hu
    have hnn : ∀ x ∈ rays.map (fun r => sq (cross (q - mulVec3 B (normal rays).r) r.1)), 0 ≤ x := by
      intro x hx; obtain ⟨r, -, rfl⟩ := List.mem_map.1 hx; exact sq_nonneg' _
    refine ⟨by rw [hd]; linarith [List.sum_nonneg hnn], fun heq => ?_⟩
    have hz : (rays.map (fun r => sq (cross (q - mulVec3 B (normal rays).r) r.1))).sum = 0 := by linarith
    have := hsp (q - mulVec3 B (normal rays).r) (fun r hr => by
      have hle := List.single_le_sum hnn _ (List.mem_map.2 ⟨r, hr, rfl⟩)
      rw [hz] at hle
      exact (sq_eq_zero _).1 (le_antisymm hle (sq_nonneg' _)))
    have ex := congrArg V3.x this; have ey := congrArg V3.y this; have ez := congrArg V3.z this
    simp only [sub_x, sub_y, sub_z, zero_x, zero_y, zero_z] at ex ey ez
    ext <;> linarith

/-- A square root. -/
def IsSqrt (sqrt : K → K) : Prop := ∀ x, 0 ≤ x → 0 ≤ sqrt x ∧ sqrt x * sqrt x = x

theorem IsSqrt.unique {sqrt : K → K} (h : IsSqrt sqrt) (x y : K) (hy : 0 ≤ y) (hxy : y * y = x) : sqrt x = y := by
  obtain ⟨h0, h1⟩ := h x (by rw [← hxy]; exact mul_self_nonneg y)
  nlinarith [mul_self_eq_mul_self_iff.1 (h1.trans hxy.symm) |>.elim id (fun h => by nlinarith : sqrt x = -y → sqrt x = y)]

/-- **C95.** For two rays the code for several rays gives the same point, and as error the length of the error vector. -/
theorem multi_pair (sqrt : K → K) (hs : IsSqrt sqrt) (r0 r1 : Ray K) (hu : Units [r0, r1]) (p e : V3 K)
    (h : triangulatePair r0.1 r0.2 r1.1 r1.2 = some (p, e)) : triangulateMulti sqrt [r0, r1] = .ok p ⟨sqrt (sq e), 0, 0⟩ := by
  obtain ⟨d0, c0⟩ := r0
  obtain ⟨d1, c1⟩ := r1
  simp only at h
  have hc : cross d0 d1 ≠ 0 := fun h' => by rw [(pair_spec d0 c0 d1 c1).1.2 h'] at h; cases h
  obtain ⟨⟨s, t, he, hp, -⟩, he0, he1⟩ := (pair_spec d0 c0 d1 c1).2 p e h
  have u0 : sq d0 = 1 := hu (d0, c0) (by simp)
  have u1 : sq d1 = 1 := hu (d1, c1) (by simp)
  have hsp : Spread [(d0, c0), (d1, c1)] := spread_of_pair _ (d0, c0) (d1, c1) (by simp) (by simp) hc
  have px := congrArg V3.x hp; have py := congrArg V3.y hp; have pz := congrArg V3.z hp
  have ex := congrArg V3.x he; have ey := congrArg V3.y he; have ez := congrArg V3.z he
  simp only [add_x, add_y, add_z, sub_x, sub_y, sub_z, smul_x, smul_y, smul_z] at px py pz ex ey ez
  -- the point in terms of the error vector
  have ax : p.x - c0.x = s * d0.x - e.x / 2 := by linarith
  have ay : p.y - c0.y = s * d0.y - e.y / 2 := by linarith
  have az : p.z - c0.z = s * d0.z - e.z / 2 := by linarith
  have bx : p.x - c1.x = t * d1.x + e.x / 2 := by linarith
  have by' : p.y - c1.y = t * d1.y + e.y / 2 := by linarith
  have bz : p.z - c1.z = t * d1.z + e.z / 2 := by linarith
  have hsol : mulVec3 (normal [(d0, c0), (d1, c1)]).mat p = (normal [(d0, c0), (d1, c1)]).r := by
    refine ext_dot _ _ fun u => ?_
    rw [mat_eq, rhs_eq]
    simp only [List.map_cons, List.map_nil, List.sum_cons, List.sum_nil, add_zero]
    have k0 : dot u p - dot u d0 * dot d0 p - (dot u c0 - dot u d0 * dot d0 c0) = -dot u e / 2 := by
      have : dot u p - dot u d0 * dot d0 p - (dot u c0 - dot u d0 * dot d0 c0) =
          dot u (p - c0) - dot u d0 * dot d0 (p - c0) := by simp only [dot, sub_x, sub_y, sub_z]; ring
      rw [this]
      simp only [dot, sub_x, sub_y, sub_z, ax, ay, az]
      unfold sq dot at u0
      unfold dot at he0
      linear_combination -s * (u.x * d0.x + u.y * d0.y + u.z * d0.z) * u0 + (u.x * d0.x + u.y * d0.y + u.z * d0.z) / 2 * he0
    have k1 : dot u p - dot u d1 * dot d1 p - (dot u c1 - dot u d1 * dot d1 c1) = dot u e / 2 := by
      have : dot u p - dot u d1 * dot d1 p - (dot u c1 - dot u d1 * dot d1 c1) =
          dot u (p - c1) - dot u d1 * dot d1 (p - c1) := by simp only [dot, sub_x, sub_y, sub_z]; ring
      rw [this]
      simp only [dot, sub_x, sub_y, sub_z, bx, by', bz]
      unfold sq dot at u1
      unfold dot at he1
      linear_combination -t * (u.x * d1.x + u.y * d1.y + u.z * d1.z) * u1 - (u.x * d1.x + u.y * d1.y + u.z * d1.z) / 2 * he1
    linarith
  have d0' : rayDistSq p (d0, c0) = sq e / 4 := by
    unfold rayDistSq
    simp only [ax, ay, az]
    unfold sq dot at u0 ⊢
    unfold dot at he0
    linear_combination - s * s * (d0.x * d0.x + d0.y * d0.y + d0.z * d0.z) * u0 -
      (s - s * (d0.x * d0.x + d0.y * d0.y + d0.z * d0.z) + (e.x * d0.x + e.y * d0.y + e.z * d0.z) / 4) * he0
  have d1' : rayDistSq p (d1, c1) = sq e / 4 := by
    unfold rayDistSq
    simp only [bx, by', bz]
    unfold sq dot at u1 ⊢
    unfold dot at he1
    linear_combination - t * t * (d1.x * d1.x + d1.y * d1.y + d1.z * d1.z) * u1 +
      (t - t * (d1.x * d1.x + d1.y * d1.y + d1.z * d1.z) - (e.x * d1.x + e.y * d1.y + e.z * d1.z) / 4) * he1
  have herr : multiError sqrt [(d0, c0), (d1, c1)] p = sqrt (sq e) := by
    unfold multiError
    simp only [List.map_cons, List.map_nil, List.sum_cons, List.sum_nil, List.length_cons, List.length_nil]
    have hq : ¬ sq e / 4 < 0 := by have := sq_nonneg' e; push Not; positivity
    rw [d0', d1', if_neg hq]
    obtain ⟨g0, g1⟩ := hs (sq e) (sq_nonneg' e)
    have : sqrt (sq e / 4) = sqrt (sq e) / 2 := hs.unique _ _ (by positivity) (by linear_combination g1 / 4)
    rw [this]
    norm_num
  unfold triangulateMulti
  cases hB : VW.Matrix.inverse 3 (normal [(d0, c0), (d1, c1)]).mat with
  | none => exact absurd hsp ((inverse_none_iff _ hu).1 hB)
  | some B =>
    simp only
    have : mulVec3 B (normal [(d0, c0), (d1, c1)]).r = p := by rw [← hsol]; exact (inverse_solves _ _ hB p).2
    rw [this, herr]

end Verif.Camera
