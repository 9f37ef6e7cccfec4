import Verif.Camera.StereoProps
import Mathlib.Analysis.SpecialFunctions.Pow.NNReal
import Mathlib.Data.List.GetD

/-
C95, continued.  The stereo model as a whole.
-/

namespace Verif.Camera

set_option linter.unusedSectionVars false

variable {K : Type} [Field K] [LinearOrder K] [IsStrictOrderedRing K]

/-- The point lies on the line of the ray. -/
def OnLine (X : V3 K) (r : Ray K) : Prop := ∃ s : K, X = r.2 + s * r.1

/-- The point lies on the ray, not behind its centre. -/
def OnRay (X : V3 K) (r : Ray K) : Prop := ∃ s : K, 0 ≤ s ∧ X = r.2 + s * r.1

theorem rayDistSq_onLine (X : V3 K) (r : Ray K) (hu : sq r.1 = 1) (h : OnLine X r) : rayDistSq X r = 0 := by
  obtain ⟨s, hs⟩ := h
  refine le_antisymm ?_ (rayDistSq_nonneg X r hu)
  have := (rayDistSq_spec X r hu).1 s
  rw [← hs] at this
  have hz : sq (X - X) = 0 := by simp [sq, dot]
  rw [hz] at this
  exact this

theorem sqrt_zero' {sqrt : K → K} (hs : IsSqrt sqrt) : sqrt 0 = 0 := hs.unique 0 0 le_rfl (by ring)

/-- **C95.** Lines that all pass through one point, not all parallel: that point, without error. -/
theorem multi_exact (sqrt : K → K) (hs : IsSqrt sqrt) (rays : List (Ray K)) (hu : Units rays) (hsp : Spread rays) (X : V3 K)
    (hX : ∀ r ∈ rays, OnLine X r) : triangulateMulti sqrt rays = .ok X 0 := by
  have hc : cost rays X = 0 := by
    unfold cost
    have : rays.map (rayDistSq X) = rays.map (fun _ => (0 : K)) :=
      List.map_congr_left fun r hr => rayDistSq_onLine X r (hu r hr) (hX r hr)
    rw [this]; simp
  obtain ⟨h1, h2⟩ := multi_spec sqrt rays hu
  cases ho : triangulateMulti sqrt rays with
  | mathErr => exact absurd hsp (h1.1 ho)
  | nan => unfold triangulateMulti at ho; split at ho <;> cases ho
  | argErr => unfold triangulateMulti at ho; split at ho <;> cases ho
  | ok p e =>
    obtain ⟨he, hm⟩ := h2 p e ho
    have hXp : X = p := (hm X).2 (le_antisymm (by rw [hc]; exact cost_nonneg rays p hu) (hm X).1)
    subst hXp
    rw [he]
    congr 1
    refine V3.ext ?_ rfl rfl
    show multiError sqrt rays X = 0
    unfold multiError
    have : rays.map (fun ray => sqrt (if rayDistSq X ray < 0 then 0 else rayDistSq X ray)) = rays.map (fun _ => (0 : K)) :=
      List.map_congr_left fun r hr => by rw [rayDistSq_onLine X r (hu r hr) (hX r hr)]; simp [sqrt_zero' hs]
    rw [this]; simp

/-- **C95.** The same for any number of rays. -/
theorem point_exact (sqrt : K → K) (hs : IsSqrt sqrt) (rays : List (Ray K)) (hu : Units rays) (hsp : Spread rays) (X : V3 K)
    (hX : ∀ r ∈ rays, OnLine X r) : triangulatePoint sqrt rays = .ok X 0 := by
  have hm := multi_exact sqrt hs rays hu hsp X hX
  match rays, hu, hsp, hX, hm with
  | [r0, r1], hu, hsp, hX, hm =>
    unfold triangulatePoint
    simp only
    obtain ⟨s, h0⟩ := hX r0 (by simp)
    obtain ⟨t, h1⟩ := hX r1 (by simp)
    have hc : cross r0.1 r1.1 ≠ 0 := by
      intro hc
      have hz := hsp r0.1 (fun r hr => by
        rcases List.mem_cons.1 hr with rfl | hr
        · unfold cross; ext <;> simp <;> ring
        · rw [List.mem_singleton.1 hr]; exact hc)
      have h1 := hu r0 (by simp)
      rw [hz] at h1
      simp [sq, dot] at h1
    rw [pair_exact r0.1 r0.2 r1.1 r1.2 X hc s t h0 h1]
  | [], _, _, _, hm => exact hm
  | [_], _, _, _, hm => exact hm
  | _ :: _ :: _ :: _, _, _, _, hm => exact hm

/-- What the parallel test is for. -/
theorem nearlyParallel_spec (dflt tol : K) (dirs : List (V3 K)) :
    nearlyParallel dflt tol dirs = true ↔ ∀ i, (h : i + 1 < dirs.length) →
      1 - dot dirs[i] dirs[i + 1] < (if 0 < tol then tol else dflt) := by
  unfold nearlyParallel
  simp only [List.all_eq_true, List.mem_range]
  constructor
  · intro h i hi
    have := h i (by omega)
    rw [List.getD_eq_getElem _ _ (by omega), List.getD_eq_getElem _ _ hi] at this
    simp only [Bool.not_eq_true', decide_eq_false_iff_not, not_le] at this
    exact this
  · intro h i hi
    rw [List.getD_eq_getElem _ _ (by omega), List.getD_eq_getElem _ _ (by omega)]
    simp only [Bool.not_eq_true', decide_eq_false_iff_not, not_le]
    exact h i (by omega)

/-- **C95.** Rays that meet in a point in front of the cameras, not nearly parallel by the test, not exactly parallel: the
point is returned, without error. -/
theorem rays_exact (sqrt : K → K) (hs : IsSqrt sqrt) (dflt tol : K) (rays : List (Ray K)) (hu : Units rays) (hsp : Spread rays)
    (hn : nearlyParallel dflt tol (rays.map (·.1)) = false) (X : V3 K) (hX : ∀ r ∈ rays, OnRay X r) :
    fromRays sqrt dflt tol rays = .ok X 0 := by
  have h2 : ¬ rays.length < 2 := by
    intro h
    have : nearlyParallel dflt tol (rays.map (·.1)) = true := by
      rw [nearlyParallel_spec]
      intro i hi
      rw [List.length_map] at hi
      omega
    rw [this] at hn; cases hn
  unfold fromRays
  rw [if_neg h2, hn, point_exact sqrt hs rays hu hsp X (fun r hr => by obtain ⟨s, -, h⟩ := hX r hr; exact ⟨s, h⟩)]
  have hr : rays.any (fun r => decide (dot (X - r.2) r.1 < 0)) = false := by
    rw [List.any_eq_false]
    intro r hr
    obtain ⟨s, hs0, h⟩ := hX r hr
    have := hu r hr
    simp only [decide_eq_true_eq, not_lt]
    have e : dot (X - r.2) r.1 = s * sq r.1 := by
      rw [h]; simp only [sq, dot, sub_x, sub_y, sub_z, add_x, add_y, add_z, smul_x, smul_y, smul_z]; ring
    rw [e, this, mul_one]; exact hs0
  simp [hr]

/-- The pixels that are used: those that are numbers and not the invalid pixel, in order. -/
def usable (inv : K × K) (l : List (Cam K × Option (K × K))) : List (Cam K × (K × K)) :=
  l.filterMap (fun cp => match cp.2 with
    | none => none
    | some q => if q = inv then none else some (cp.1, q))

/-- **C95.** The rays are those of the usable pixels, in order; there are none if one of these cannot be turned into a ray. -/
theorem pickRays_spec (inv : K × K) (l : List (Cam K × Option (K × K))) :
    (pickRays inv l = none ↔ ∃ cq ∈ usable inv l, cq.1.toVector cq.2 = none) ∧
    (∀ rays, pickRays inv l = some rays →
      rays.map some = (usable inv l).map (fun cq => (cq.1.toVector cq.2).map (fun d => (d, cq.1.center cq.2)))) := by
  induction l with
  | nil =>
    refine ⟨⟨fun h => (by cases h), fun ⟨cq, h, _⟩ => (by simp [usable] at h)⟩, fun rays h => ?_⟩
    simp only [pickRays, Option.some.injEq] at h
    subst h; rfl
  | cons a l ih =>
    obtain ⟨cam, pix⟩ := a
    cases pix with
    | none => exact ih
    | some q =>
      by_cases hq : q = inv
      · have e1 : pickRays inv ((cam, some q) :: l) = pickRays inv l := by simp [pickRays, hq]
        have e2 : usable inv ((cam, some q) :: l) = usable inv l := by simp [usable, hq]
        rw [e1, e2]; exact ih
      · have e2 : usable inv ((cam, some q) :: l) = (cam, q) :: usable inv l := by simp [usable, hq]
        rw [e2]
        cases hd : cam.toVector q with
        | none =>
          have e1 : pickRays inv ((cam, some q) :: l) = none := by simp [pickRays, hq, hd]
          rw [e1]
          exact ⟨⟨fun _ => ⟨(cam, q), by simp, hd⟩, fun _ => rfl⟩, fun rays h => (by cases h)⟩
        | some d =>
          have e1 : pickRays inv ((cam, some q) :: l) = (pickRays inv l).map (fun r => (d, cam.center q) :: r) := by
            simp [pickRays, hq, hd]
          rw [e1]
          constructor
          · rw [Option.map_eq_none_iff, ih.1]
            constructor
            · rintro ⟨cq, h, h'⟩; exact ⟨cq, List.mem_cons_of_mem _ h, h'⟩
            · rintro ⟨cq, h, h'⟩
              rcases List.mem_cons.1 h with rfl | h
              · rw [hd] at h'; cases h'
              · exact ⟨cq, h, h'⟩
          · intro rays h
            obtain ⟨r, hr, rfl⟩ := Option.map_eq_some_iff.1 h
            rw [List.map_cons, List.map_cons, ih.2 r hr, hd]
            rfl

/-- **C95.** The call: too many or few pixels is an error; fewer than two usable pixels, a pixel without a ray, or directions
that are nearly parallel give the zero vector and no error. -/
theorem triangulate_cases (sqrt : K → K) (dflt tol : K) (inv : K × K) (cams : List (Cam K)) (pix : List (Option (K × K))) :
    (triangulate sqrt dflt tol inv cams pix = .argErr ↔ pix.length ≠ cams.length) ∧
    (pix.length = cams.length → (usable inv (cams.zip pix)).length < 2 → triangulate sqrt dflt tol inv cams pix = .ok 0 0) ∧
    (pix.length = cams.length → (∃ cq ∈ usable inv (cams.zip pix), cq.1.toVector cq.2 = none) →
      triangulate sqrt dflt tol inv cams pix = .ok 0 0) ∧
    (∀ rays, pix.length = cams.length → pickRays inv (cams.zip pix) = some rays →
      triangulate sqrt dflt tol inv cams pix = fromRays sqrt dflt tol rays ∧
      (nearlyParallel dflt tol (rays.map (·.1)) = true → triangulate sqrt dflt tol inv cams pix = .ok 0 0)) := by
  have hne : ∀ rays : List (Ray K), fromRays sqrt dflt tol rays ≠ .argErr := by
    intro rays h
    unfold fromRays at h
    by_cases h2 : rays.length < 2
    · rw [if_pos h2] at h; cases h
    · rw [if_neg h2] at h
      by_cases h3 : nearlyParallel dflt tol (rays.map (·.1)) = true
      · rw [if_pos h3] at h; cases h
      · rw [if_neg h3] at h
        have h4 : triangulatePoint sqrt rays ≠ .argErr := by
          intro h
          unfold triangulatePoint triangulateMulti at h
          split at h
          · split at h <;> cases h
          · split at h <;> cases h
        cases ho : triangulatePoint sqrt rays with
        | ok p e => rw [ho] at h; simp only at h; split at h <;> cases h
        | nan => rw [ho] at h; cases h
        | mathErr => rw [ho] at h; cases h
        | argErr => exact h4 ho
  have hpick := pickRays_spec inv (cams.zip pix)
  refine ⟨?_, ?_, ?_, ?_⟩
  · unfold triangulate
    by_cases h : pix.length = cams.length
    · rw [if_neg (not_not.2 h)]
      refine ⟨fun h' => ?_, fun h' => absurd h h'⟩
      cases hp : pickRays inv (cams.zip pix) with
      | none => rw [hp] at h'; cases h'
      | some rays => rw [hp] at h'; exact absurd h' (hne rays)
    · rw [if_pos h]; exact ⟨fun _ => h, fun _ => rfl⟩
  · intro h hl
    unfold triangulate
    rw [if_neg (not_not.2 h)]
    cases hp : pickRays inv (cams.zip pix) with
    | none => rfl
    | some rays =>
      have : rays.length < 2 := by
        have := congrArg List.length (hpick.2 rays hp)
        rw [List.length_map, List.length_map] at this
        omega
      simp [fromRays, this]
  · intro h hx
    unfold triangulate
    rw [if_neg (not_not.2 h), hpick.1.2 hx]
  · intro rays h hp
    have e : triangulate sqrt dflt tol inv cams pix = fromRays sqrt dflt tol rays := by
      unfold triangulate
      rw [if_neg (not_not.2 h), hp]
    refine ⟨e, fun hn => ?_⟩
    rw [e]
    unfold fromRays
    by_cases h2 : rays.length < 2
    · rw [if_pos h2]
    · rw [if_neg h2, if_pos hn]

/-- **C95.** The round trip of the stereo model: each usable pixel of each camera has a unit ray through the point, the rays
are not nearly parallel by the test and not all exactly parallel: the point comes back, without error. -/
theorem triangulate_exact (sqrt : K → K) (hs : IsSqrt sqrt) (dflt tol : K) (inv : K × K) (cams : List (Cam K))
    (pix : List (Option (K × K))) (X : V3 K) (hl : pix.length = cams.length)
    (hray : ∀ cq ∈ usable inv (cams.zip pix), ∃ d, cq.1.toVector cq.2 = some d ∧ sq d = 1 ∧ OnRay X (d, cq.1.center cq.2))
    (hsp : ∀ v : V3 K, (∀ cq ∈ usable inv (cams.zip pix), ∀ d, cq.1.toVector cq.2 = some d → cross v d = 0) → v = 0)
    (hn : nearlyParallel dflt tol ((usable inv (cams.zip pix)).map (fun cq => (cq.1.toVector cq.2).getD 0)) = false) :
    triangulate sqrt dflt tol inv cams pix = .ok X 0 := by
  have hpick := pickRays_spec inv (cams.zip pix)
  cases hp : pickRays inv (cams.zip pix) with
  | none =>
    obtain ⟨cq, hcq, h⟩ := hpick.1.1 hp
    obtain ⟨d, hd, -⟩ := hray cq hcq
    rw [hd] at h; cases h
  | some rays =>
    have hmap := hpick.2 rays hp
    have hmem : ∀ r ∈ rays, ∃ cq ∈ usable inv (cams.zip pix), cq.1.toVector cq.2 = some r.1 ∧ cq.1.center cq.2 = r.2 := by
      intro r hr
      have : some r ∈ rays.map some := List.mem_map.2 ⟨r, hr, rfl⟩
      rw [hmap] at this
      obtain ⟨cq, hcq, h⟩ := List.mem_map.1 this
      obtain ⟨d, hd, rfl⟩ := Option.map_eq_some_iff.1 h
      exact ⟨cq, hcq, hd, rfl⟩
    have hmem' : ∀ cq ∈ usable inv (cams.zip pix), ∀ d, cq.1.toVector cq.2 = some d → (d, cq.1.center cq.2) ∈ rays := by
      intro cq hcq d hd
      have : (cq.1.toVector cq.2).map (fun d => (d, cq.1.center cq.2)) ∈ rays.map some := by
        rw [hmap]; exact List.mem_map.2 ⟨cq, hcq, rfl⟩
      rw [hd] at this
      obtain ⟨r, hr, h⟩ := List.mem_map.1 this
      simp only [Option.map_some, Option.some.injEq] at h
      rw [← h]; exact hr
    rw [((triangulate_cases sqrt dflt tol inv cams pix).2.2.2 rays hl hp).1]
    refine rays_exact sqrt hs dflt tol rays ?_ ?_ ?_ X ?_
    · intro r hr
      obtain ⟨cq, hcq, h1, h2⟩ := hmem r hr
      obtain ⟨d, hd, hu, -⟩ := hray cq hcq
      rw [hd] at h1
      simp only [Option.some.injEq] at h1
      rw [← h1]; exact hu
    · intro v hv
      exact hsp v (fun cq hcq d hd => hv _ (hmem' cq hcq d hd))
    · have : rays.map (·.1) = (usable inv (cams.zip pix)).map (fun cq => (cq.1.toVector cq.2).getD 0) := by
        have := congrArg (List.map (fun o : Option (Ray K) => (o.getD (0, 0)).1)) hmap
        rw [List.map_map, List.map_map] at this
        have e1 : rays.map ((fun o : Option (Ray K) => (o.getD (0, 0)).1) ∘ some) = rays.map (·.1) := rfl
        rw [e1] at this
        rw [this]
        refine List.map_congr_left fun cq _ => ?_
        simp only [Function.comp]
        cases cq.1.toVector cq.2 <;> rfl
      rw [this]; exact hn
    · intro r hr
      obtain ⟨cq, hcq, h1, h2⟩ := hmem r hr
      obtain ⟨d, hd, -, ho⟩ := hray cq hcq
      rw [hd] at h1
      simp only [Option.some.injEq] at h1
      rw [h1, h2] at ho
      exact ho

/-! ## What the tests do not do -/

/-- **C95.** Exactly opposite directions pass the test for parallel directions, and the result is not a number. -/
theorem opposite_nan (sqrt : K → K) (dflt tol : K) (h1 : (if 0 < tol then tol else dflt) ≤ 2) (d c0 c1 : V3 K) (hu : sq d = 1) :
    fromRays sqrt dflt tol [(d, c0), (-d, c1)] = .nan := by
  have hn : nearlyParallel dflt tol [d, -d] = false := by
    by_contra h
    have h := (nearlyParallel_spec dflt tol [d, -d]).1 (by simpa using h) 0 (by simp)
    simp only [List.getElem_cons_zero, List.getElem_cons_succ] at h
    have : dot d (-d) = -1 := by
      have hh := hu
      simp only [sq, dot] at hh
      simp only [dot, neg_x, neg_y, neg_z]; linarith
    rw [this] at h
    linarith
  have hc : cross d (-d) = 0 := by unfold cross; ext <;> simp <;> ring
  unfold fromRays
  simp only [List.length_cons, List.length_nil, List.map_cons, List.map_nil, hn]
  have ht : triangulatePoint sqrt [(d, c0), (-d, c1)] = .nan := by
    unfold triangulatePoint
    simp only
    rw [(pair_spec d c0 (-d) c1).1.2 hc]
  simp [ht]

/-- Three directions of which each two neighbours are close, but not the first and the last: all are thrown away. -/
def driftRays : List (Ray ℚ) := [(⟨1, 0, 0⟩, ⟨-1, 0, 0⟩), (⟨4/5, 3/5, 0⟩, ⟨-4/5, -3/5, 0⟩), (⟨7/25, 24/25, 0⟩, ⟨-7/25, -24/25, 0⟩)]

/-- **C95.** A point seen by three cameras, the first and the last at a wide angle, is thrown away because each camera is
close to the next one; with only the first and the last camera it is found. -/
theorem drift :
    (∀ sqrt, fromRays sqrt (1/10000) (1/2) driftRays = .ok 0 0) ∧
    nearlyParallel (1/10000 : ℚ) (1/2) ((driftRays.map (·.1)).eraseIdx 1) = false := by
  refine ⟨fun sqrt => ?_, by decide +kernel⟩
  have : nearlyParallel (1/10000 : ℚ) (1/2) (driftRays.map (·.1)) = true := by decide +kernel
  unfold fromRays
  rw [if_neg (by decide), if_pos this]

/-- **C95.** Reflection is about the first camera's centre: the component along its direction changes sign, so a point that
was in front of the first camera but behind another ends up behind the first camera. -/
theorem reflect_behind (sqrt : K → K) (dflt tol : K) (rays : List (Ray K)) (p e : V3 K) (r0 : Ray K) (l : List (Ray K))
    (hr : rays = r0 :: l) (h2 : 2 ≤ rays.length) (hn : nearlyParallel dflt tol (rays.map (·.1)) = false)
    (hp : triangulatePoint sqrt rays = .ok p e) (h0 : 0 < dot (p - r0.2) r0.1) (hb : ∃ r ∈ l, dot (p - r.2) r.1 < 0) :
    ∃ q, fromRays sqrt dflt tol rays = .ok q e ∧ dot (q - r0.2) r0.1 < 0 ∧ q - r0.2 = -(p - r0.2) := by
  refine ⟨-p + (2 : K) * r0.2, ?_, ?_, ?_⟩
  · unfold fromRays
    rw [if_neg (by omega), hn, hp]
    have : rays.any (fun r => decide (dot (p - r.2) r.1 < 0)) = true := by
      rw [List.any_eq_true]
      obtain ⟨r, hr', h⟩ := hb
      exact ⟨r, by rw [hr]; exact List.mem_cons_of_mem _ hr', by simpa using h⟩
    simp only [this, if_true, Bool.false_eq_true, if_false]
    rw [hr]
    rfl
  · have : dot (-p + (2 : K) * r0.2 - r0.2) r0.1 = -dot (p - r0.2) r0.1 := by
      simp only [dot, sub_x, sub_y, sub_z, add_x, add_y, add_z, neg_x, neg_y, neg_z, smul_x, smul_y, smul_z]; ring
    rw [this]; linarith
  · ext <;> simp <;> ring

/-- **C95.** When the point is behind the first camera, reflection puts it in front of it, at the same distance. -/
theorem reflect_front (sqrt : K → K) (dflt tol : K) (rays : List (Ray K)) (p e : V3 K) (r0 : Ray K) (l : List (Ray K))
    (hr : rays = r0 :: l) (h2 : 2 ≤ rays.length) (hn : nearlyParallel dflt tol (rays.map (·.1)) = false)
    (hp : triangulatePoint sqrt rays = .ok p e) (h0 : dot (p - r0.2) r0.1 < 0) :
    ∃ q, fromRays sqrt dflt tol rays = .ok q e ∧ 0 < dot (q - r0.2) r0.1 ∧ sq (q - r0.2) = sq (p - r0.2) := by
  refine ⟨-p + (2 : K) * r0.2, ?_, ?_, ?_⟩
  · unfold fromRays
    rw [if_neg (by omega), hn, hp]
    have : rays.any (fun r => decide (dot (p - r.2) r.1 < 0)) = true := by
      rw [List.any_eq_true]
      exact ⟨r0, by rw [hr]; exact List.mem_cons_self, by simpa using h0⟩
    simp only [this, if_true, Bool.false_eq_true, if_false]
    rw [hr]
    rfl
  · have : dot (-p + (2 : K) * r0.2 - r0.2) r0.1 = -dot (p - r0.2) r0.1 := by
      simp only [dot, sub_x, sub_y, sub_z, add_x, add_y, add_z, neg_x, neg_y, neg_z, smul_x, smul_y, smul_z]; ring
    rw [this]; linarith
  · simp only [sq, dot, sub_x, sub_y, sub_z, add_x, add_y, add_z, neg_x, neg_y, neg_z, smul_x, smul_y, smul_z]; ring

/-- **C95.** Otherwise nothing is reflected. -/
theorem no_reflect (sqrt : K → K) (dflt tol : K) (rays : List (Ray K)) (p e : V3 K) (h2 : 2 ≤ rays.length)
    (hn : nearlyParallel dflt tol (rays.map (·.1)) = false) (hp : triangulatePoint sqrt rays = .ok p e)
    (h0 : ∀ r ∈ rays, 0 ≤ dot (p - r.2) r.1) : fromRays sqrt dflt tol rays = .ok p e := by
  unfold fromRays
  rw [if_neg (by omega), hn, hp]
  have : rays.any (fun r => decide (dot (p - r.2) r.1 < 0)) = false := by
    rw [List.any_eq_false]
    intro r hr
    simpa using h0 r hr
  simp [this]

/-! ## Concrete cases -/

/-- A square root exists over the reals. -/
theorem isSqrt_real : IsSqrt Real.sqrt := fun x hx => ⟨Real.sqrt_nonneg x, Real.mul_self_sqrt hx⟩

/-- Three rays through the origin. -/
noncomputable def exRays : List (Ray ℝ) := [(⟨1, 0, 0⟩, ⟨-1, 0, 0⟩), (⟨0, 1, 0⟩, ⟨0, -2, 0⟩), (⟨3/5, 4/5, 0⟩, ⟨-3, -4, 0⟩)]

example : fromRays Real.sqrt (1/10000) 0 exRays = .ok 0 0 ∧ triangulatePoint Real.sqrt exRays = .ok 0 0 := by
  have hu : Units exRays := by
    intro r hr
    simp only [exRays, List.mem_cons, List.not_mem_nil, or_false] at hr
    rcases hr with rfl | rfl | rfl <;> norm_num [sq, dot]
  have hsp : Spread exRays := spread_of_pair exRays (⟨1, 0, 0⟩, ⟨-1, 0, 0⟩) (⟨0, 1, 0⟩, ⟨0, -2, 0⟩) (by simp [exRays])
    (by simp [exRays]) (by intro h; have := congrArg V3.z h; norm_num [cross] at this)
  have hX : ∀ r ∈ exRays, OnRay 0 r := by
    intro r hr
    simp only [exRays, List.mem_cons, List.not_mem_nil, or_false] at hr
    rcases hr with rfl | rfl | rfl
    · exact ⟨1, by norm_num, by ext <;> norm_num⟩
    · exact ⟨2, by norm_num, by ext <;> norm_num⟩
    · exact ⟨5, by norm_num, by ext <;> norm_num⟩
  refine ⟨rays_exact Real.sqrt isSqrt_real _ _ exRays hu hsp ?_ 0 hX,
    point_exact Real.sqrt isSqrt_real exRays hu hsp 0 (fun r hr => by obtain ⟨s, -, h⟩ := hX r hr; exact ⟨s, h⟩)⟩
  by_contra h
  have h := (nearlyParallel_spec (1/10000 : ℝ) 0 _).1 (by simpa using h) 0 (by simp [exRays])
  norm_num [exRays, dot] at h

/-- Two lines that do not meet. -/
example : triangulatePair (⟨1, 0, 0⟩ : V3 ℚ) ⟨0, 0, 1⟩ ⟨0, 1, 0⟩ ⟨0, 0, -1⟩ = some (0, ⟨0, 0, 2⟩) := by decide +kernel
/-- A point behind the second camera. -/
example : triangulatePair (⟨1, 0, 0⟩ : V3 ℚ) ⟨-1, 0, 0⟩ ⟨0, 1, 0⟩ ⟨0, 1, 0⟩ = some (0, 0) ∧
    0 < dot ((0 : V3 ℚ) - ⟨-1, 0, 0⟩) ⟨1, 0, 0⟩ ∧ dot ((0 : V3 ℚ) - ⟨0, 1, 0⟩) ⟨0, 1, 0⟩ < 0 ∧
    fromRays id (1/10000) 0 [((⟨1, 0, 0⟩ : V3 ℚ), ⟨-1, 0, 0⟩), (⟨0, 1, 0⟩, ⟨0, 1, 0⟩)] = .ok ⟨-2, 0, 0⟩ 0 := by decide +kernel
example : (if (0 : ℚ) < 0 then (0 : ℚ) else 1/10000) ≤ 2 ∧ sq (⟨3/5, 0, 4/5⟩ : V3 ℚ) = 1 := by decide +kernel

/-- Two cameras that look at the origin; the third pixel is invalid, the fourth not a number. -/
noncomputable def exCams : List (Cam ℝ) := [⟨fun _ => some ⟨1, 0, 0⟩, fun _ => ⟨-1, 0, 0⟩⟩, ⟨fun _ => none, fun _ => 0⟩, ⟨fun _ => some ⟨0, 1, 0⟩, fun _ => ⟨0, -2, 0⟩⟩,
  ⟨fun _ => none, fun _ => 0⟩]

example : triangulate Real.sqrt (1/10000) 0 (-1, -1) exCams [some (3, 4), some (-1, -1), some (5, 6), none] = .ok 0 0 := by
  have hus : ∀ cq ∈ usable (-1, -1) (exCams.zip [some (3, 4), some (-1, -1), some (5, 6), none]),
      cq.1 = exCams[0] ∨ cq.1 = exCams[2] := by
    intro cq h
    simp only [usable, exCams, List.zip_cons_cons, List.zip_nil_left, List.mem_filterMap, List.mem_cons, List.not_mem_nil, or_false] at h
    obtain ⟨a, rfl | rfl | rfl | rfl, h⟩ := h
    · norm_num at h; subst h; left; rfl
    · simp at h
    · norm_num at h; subst h; right; rfl
    · cases h
  have hcross : cross (⟨1, 0, 0⟩ : V3 ℝ) ⟨0, 1, 0⟩ ≠ 0 := by intro h; have := congrArg V3.z h; norm_num [cross] at this
  have hus2 : usable (-1, -1) (exCams.zip [some (3, 4), some (-1, -1), some (5, 6), none]) =
      [((exCams[0] : Cam ℝ), ((3 : ℝ), (4 : ℝ))), ((exCams[2] : Cam ℝ), ((5 : ℝ), (6 : ℝ)))] := by
    simp only [usable, exCams, List.zip_cons_cons, List.zip_nil_left, List.filterMap_cons, List.filterMap_nil]
    norm_num
  refine triangulate_exact Real.sqrt isSqrt_real _ _ _ _ _ 0 rfl ?_ ?_ ?_
  · intro cq h
    rcases hus cq h with h | h <;> rw [h]
    · exact ⟨⟨1, 0, 0⟩, rfl, by norm_num [sq, dot], 1, by norm_num, by ext <;> norm_num [exCams]⟩
    · exact ⟨⟨0, 1, 0⟩, rfl, by norm_num [sq, dot], 2, by norm_num, by ext <;> norm_num [exCams]⟩
  · intro v hv
    rw [hus2] at hv
    refine spread_of_pair [((⟨1, 0, 0⟩ : V3 ℝ), 0), (⟨0, 1, 0⟩, 0)] (⟨1, 0, 0⟩, 0) (⟨0, 1, 0⟩, 0) (by simp) (by simp) hcross v ?_
    intro r hr
    simp only [List.mem_cons, List.not_mem_nil, or_false] at hr
    rcases hr with rfl | rfl
    · exact hv (exCams[0], (3, 4)) (by simp) _ rfl
    · exact hv (exCams[2], (5, 6)) (by simp) _ rfl
  · rw [hus2]
    by_contra h
    have h := (nearlyParallel_spec (1/10000 : ℝ) 0 _).1 (by simpa using h) 0 (by simp)
    norm_num [exCams, dot] at h

end Verif.Camera
