import Verif.Bathy.SnellProps

/-
C103: rays bent at a curved surface, and stereo through water.
-/

namespace Verif.Camera.Bathy

set_option linter.unusedSectionVars false

variable {K : Type} [Field K] [LinearOrder K] [IsStrictOrderedRing K]

/-- A projection that is a rigid motion, with linear part `L`. -/
structure Rigid (P : Proj K) (L : V3 K → V3 K) : Prop where
  line : ∀ (a w : V3 K) (s : K), P.proj (a + s * w) = P.proj a + s * L w
  len : ∀ w, sq (L w) = sq w
  lin : ∀ (w : V3 K) (s : K), L (s * w) = s * L w
  left : ∀ a, P.unproj (P.proj a) = a
  right : ∀ b, P.proj (P.unproj b) = b

theorem norm_smul_unit (sqrt : K → K) (hs : IsSqrt sqrt) (a : K) (ha : 0 < a) (w : V3 K) (hw : sq w = 1) : norm sqrt (a * w) = a := by
  unfold norm
  refine hs.unique _ _ ha.le ?_
  have : sq (a * w) = a * a * sq w := by unfold sq dot; simp only [smul_x, smul_y, smul_z]; ring
  rw [this, hw, mul_one]

theorem passes_line (sqrt : K → K) (hs : IsSqrt sqrt) (tol : K) (P : Proj K) (L : V3 K → V3 K) (hP : Rigid P L) (pl : Plane K) (c v : V3 K)
    (hv : sq v = 1) (k : Nat) (s : K) (q : V3 K × V3 K) (hq : k = 0 → ∃ b : K, q = (P.proj c + b * L v, L v)) :
    (passes sqrt tol P pl c v k (c + s * v) q = none → 0 ≤ dot pl.n (L v)) ∧
    (∀ z, passes sqrt tol P pl c v k (c + s * v) q = some z → (∃ b : K, z.1 = c + b * v) ∧ ∃ b : K, z.2 = (P.proj c + b * L v, L v)) := by
  induction k generalizing s q with
  | zero =>
    simp only [passes]
    exact ⟨fun h => (by cases h), fun z hz => by cases hz; exact ⟨⟨s, rfl⟩, hq rfl⟩⟩
  | succ k ih =>
    simp only [passes]
    set a : K := 1 / (1 + 10 * ((4 - k : ℕ) : K)) with ha
    have hapos : 0 < a := by
      rw [ha]; refine div_pos one_pos ?_
      have : (0 : K) ≤ ((4 - k : ℕ) : K) := Nat.cast_nonneg _
      linarith
    have e1 : c + s * v - a * v = c + (s - a) * v := by ext <;> simp <;> ring
    rw [e1, hP.line, hP.line]
    have e2 : P.proj c + s * L v - (P.proj c + (s - a) * L v) = a * L v := by ext <;> simp <;> ring
    rw [e2, norm_smul_unit sqrt hs a hapos (L v) (by rw [hP.len, hv])]
    have e3 : (1 / a) * (a * L v) = L v := by
      have : (1 / a) * a = 1 := by field_simp
      ext <;> simp only [smul_x, smul_y, smul_z] <;> rw [← mul_assoc, this, one_mul]
    rw [e3]
    by_cases ht : |signedDist pl (P.proj c + s * L v)| < tol
    · rw [if_pos ht]
      exact ⟨fun h => (by cases h), fun z hz => by cases hz; exact ⟨⟨s, rfl⟩, s, rfl⟩⟩
    · rw [if_neg ht]
      cases hr : rayPlane pl (P.proj c + s * L v) (L v) with
      | none => exact ⟨fun _ => (rayPlane_spec pl _ _).1.1 hr, fun z hz => (by cases hz)⟩
      | some p =>
        simp only
        obtain ⟨b, rfl, _⟩ := ((rayPlane_spec pl _ _).2 p hr).2.1
        have e4 : P.proj c + s * L v + b * L v = P.proj (c + (s + b) * v) := by
          rw [hP.line]; ext <;> simp <;> ring
        rw [e4, hP.left]
        have e5 : dot (c + (s + b) * v - c) v = s + b := by
          have : dot (c + (s + b) * v - c) v = (s + b) * sq v := by unfold sq dot; simp only [add_x, add_y, add_z, sub_x, sub_y, sub_z, smul_x, smul_y, smul_z]; ring
          rw [this, hv, mul_one]
        rw [e5]
        exact ih (s + b) _ (fun _ => ⟨s, rfl⟩)

/-- **C103.** Where the projection is a rigid motion, the bending at the curved surface is the law of refraction in projected
coordinates, brought back: it fails exactly if that fails. -/
theorem curved_exact (sqrt : K → K) (hs : IsSqrt sqrt) (tol : K) (P : Proj K) (L : V3 K → V3 K) (hP : Rigid P L) (pl : Plane K) (r : K) (c v : V3 K)
    (hv : sq v = 1) (hn : sq pl.n = 1) (hr : 0 < r) (hseed : ∃ s : K, P.seed c v = c + s * v) :
    (curvedSnell sqrt tol P pl r c v = none ↔ snell sqrt pl r (P.proj c) (L v) = none) ∧
    (∀ oe od, curvedSnell sqrt tol P pl r c v = some (oe, od) → snell sqrt pl r (P.proj c) (L v) = some (P.proj oe, L od)) := by
  obtain ⟨s, hse⟩ := hseed
  have hLv : sq (L v) = 1 := by rw [hP.len, hv]
  unfold curvedSnell hitPlane
  rw [hse]
  obtain ⟨h1, h2⟩ := passes_line sqrt hs tol P L hP pl c v hv 5 s (0, 0) (fun h => (by cases h))
  cases hz : passes sqrt tol P pl c v 5 (c + s * v) (0, 0) with
  | none =>
    simp only
    have h0 : snell sqrt pl r (P.proj c) (L v) = none := by
      unfold snell; rw [(rayPlane_spec pl _ _).1.2 (h1 hz)]
    exact ⟨⟨fun _ => h0, fun _ => trivial⟩, fun _ _ h => (by cases h)⟩
  | some z =>
    obtain ⟨_, b, hb⟩ := h2 z hz
    obtain ⟨he, pp, dir⟩ := z
    simp only at hb
    cases hb
    simp only
    rw [snell_line]
    cases hsn : snell sqrt pl r (P.proj c) (L v) with
    | none => exact ⟨⟨fun _ => rfl, fun _ => rfl⟩, fun _ _ h => (by cases h)⟩
    | some w =>
      obtain ⟨op, od⟩ := w
      simp only
      refine ⟨⟨fun h => (by cases h), fun h => (by cases h)⟩, fun oe od' h => ?_⟩
      cases h
      have hod : sq od = 1 := (((snell_spec sqrt hs pl r (P.proj c) (L v) hn hLv hr).2 op od hsn).2).1
      -- the step back
      set w := P.unproj (op + (1 : K) * od) - P.unproj op with hw
      have hLw : L w = od := by
        have e1 : P.unproj (op + (1 : K) * od) = P.unproj op + (1 : K) * w := by rw [hw]; ext <;> simp
        have e2 := congrArg P.proj e1
        rw [hP.right, hP.line, hP.right] at e2
        have hx := congrArg V3.x e2
        have hy := congrArg V3.y e2
        have hz' := congrArg V3.z e2
        simp only [add_x, add_y, add_z, smul_x, smul_y, smul_z, one_mul] at hx hy hz'
        ext <;> linarith
      have hsw : sq w = 1 := by rw [← hP.len, hLw, hod]
      have hnw : norm sqrt w = 1 := hs.unique _ _ zero_le_one (by rw [hsw]; ring)
      rw [hnw, hP.right, hP.lin, hLw]
      have : (1 / 1 : K) * od = od := by ext <;> simp
      rw [this]

/-- **C103.** Setting up: an error for an index of at most one, other than two planes, or other than four coefficients; the
one-plane mode exactly if the projections and the coefficients are the same. -/
theorem setBathy_spec {S : Type} (s : St K S) (r : K) (planes : List (BPlane K S)) :
    ((setBathy s r planes).2 = false ↔ 1 < r ∧ planes.length = 2 ∧ ∀ p ∈ planes, p.coef.length = 4) ∧
    ((setBathy s r planes).1.correct = true ∧ (setBathy s r planes).1.index = some r ∧ (setBathy s r planes).1.planes = planes) ∧
    ((setBathy s r planes).2 = true → (setBathy s r planes).1.single = s.single) ∧
    (∀ p0 p1, planes = [p0, p1] → (setBathy s r planes).2 = false →
      (setBathy s r planes).1.single = some (decide (p0.proj = p1.proj ∧ p0.coef = p1.coef))) := by
  unfold setBathy
  simp only
  by_cases hr : r ≤ 1
  · rw [if_pos hr]
    refine ⟨⟨fun h => (by cases h), fun h => absurd h.1 (not_lt.2 hr)⟩, ⟨rfl, rfl, rfl⟩, fun _ => rfl, fun _ _ _ h => (by cases h)⟩
  · rw [if_neg hr]
    match planes with
    | [] => exact ⟨⟨fun h => (by cases h), fun h => (by cases h.2.1)⟩, ⟨rfl, rfl, rfl⟩, fun _ => rfl, fun _ _ h => (by cases h)⟩
    | [a] => exact ⟨⟨fun h => (by cases h), fun h => (by cases h.2.1)⟩, ⟨rfl, rfl, rfl⟩, fun _ => rfl, fun _ _ h => (by cases h)⟩
    | a :: b :: c :: l => exact ⟨⟨fun h => (by cases h), fun h => (by have := h.2.1; simp at this)⟩, ⟨rfl, rfl, rfl⟩, fun _ => rfl, fun _ _ h => (by cases h)⟩
    | [p0, p1] =>
      simp only
      by_cases h4 : p0.coef.length ≠ 4 ∨ p1.coef.length ≠ 4
      · rw [if_pos h4]
        refine ⟨⟨fun h => (by cases h), fun h => ?_⟩, ⟨rfl, rfl, rfl⟩, fun _ => rfl, fun _ _ _ h => (by cases h)⟩
        have h0 := h.2.2 p0 (by simp)
        have h1 := h.2.2 p1 (by simp)
        exact (h4.elim (fun h => h h0) (fun h => h h1)).elim
      · rw [if_neg h4]
        push Not at h4
        refine ⟨⟨fun _ => ⟨not_le.1 hr, rfl, fun p hp => ?_⟩, fun _ => rfl⟩, ⟨rfl, rfl, rfl⟩, fun h => (by cases h), fun q0 q1 h _ => ?_⟩
        · rcases List.mem_cons.1 hp with h | h
          · rw [h]; exact h4.1
          · rw [List.mem_singleton.1 h]; exact h4.2
        · cases h
          by_cases ha : p0.proj = p1.proj <;> by_cases hb : p0.coef = p1.coef <;> simp [ha, hb]

/-- The uncorrected triangulation. -/
def Plain (sqrt : K → K) (dflt angleTol : K) (correct : Bool) (rays : List (Ray K)) : Out K :=
  if correct then
    (if rays.length < 2 ∨ nearlyParallel dflt angleTol (rays.map (·.1)) = true then .ok 0 0 else triangulatePoint sqrt rays)
  else fromRays sqrt dflt angleTol rays

theorem toOut_pair (sqrt : K → K) (r0 r1 : Ray K) : toOut (triangulatePair r0.1 r0.2 r1.1 r1.2) = triangulatePoint sqrt [r0, r1] := by
  simp only [triangulatePoint]
  cases triangulatePair r0.1 r0.2 r1.1 r1.2 with
  | none => rfl
  | some q => rfl

/-- Two rays in the mode with refraction. -/
theorem rays_two {S : Type} (W : World K S) (sqrt : K → K) (dflt angleTol : K) (s : St K S) (r0 r1 : Ray K) (hc : s.correct = true)
    (hnp : nearlyParallel dflt angleTol [r0.1, r1.1] = false) (doBathy : Bool) :
    bathyRays W sqrt dflt angleTol s [r0, r1] doBathy =
      bathyRays.finish W s [r0, r1] doBathy (triangulatePair r0.1 r0.2 r1.1 r1.2) := by
  unfold bathyRays
  rw [if_neg (by simp), if_neg (by simp only [List.map_cons, List.map_nil]; rw [hnp]; simp)]
  rw [← toOut_pair]
  cases triangulatePair r0.1 r0.2 r1.1 r1.2 with
  | none => rfl
  | some q => obtain ⟨p, e⟩ := q; simp only [toOut, hc]; simp

/-- **C103.** Without a request for refraction, with the mode not set, or with other than two valid rays, the result is that
of triangulation without water (in the mode with refraction without the reflection of points behind a camera), or an error if
refraction is requested of two rays that are not parallel while the mode was not set. -/
theorem bathy_off {S : Type} (W : World K S) (sqrt : K → K) (dflt angleTol : K) (s : St K S) (rays : List (Ray K)) (doBathy : Bool) :
    (doBathy = false ∨ rays.length ≠ 2 →
      bathyRays W sqrt dflt angleTol s rays doBathy = .out (Plain sqrt dflt angleTol s.correct rays) false) ∧
    (s.correct = false → doBathy = true → rays.length = 2 → nearlyParallel dflt angleTol (rays.map (·.1)) = false →
      bathyRays W sqrt dflt angleTol s rays doBathy = .out .argErr false) := by
  have hfin : ∀ un, doBathy = false ∨ rays.length ≠ 2 → bathyRays.finish W s rays doBathy un = .out (toOut un) false := by
    intro un h
    unfold bathyRays.finish
    split
    · rcases h with h | h
      · cases h
      · exact absurd rfl h
    · rfl
  constructor
  · intro h
    unfold bathyRays Plain fromRays
    by_cases h2 : rays.length < 2
    · rw [if_pos h2]
      cases s.correct <;> simp [h2]
    · rw [if_neg h2]
      cases hp : nearlyParallel dflt angleTol (rays.map (·.1)) with
      | true => cases s.correct <;> simp [h2]
      | false =>
        rw [if_neg (by simp)]
        cases ht : triangulatePoint sqrt rays with
        | ok p e =>
          simp only [hfin _ h, toOut]
          cases hc : s.correct with
          | true => simp [h2]
          | false =>
            simp only [h2, Bool.not_false, Bool.true_and, if_false, Bool.false_eq_true]
            split <;> rfl
        | nan => simp only [hfin _ h, toOut]; cases s.correct <;> simp [h2]
        | mathErr => cases s.correct <;> simp [h2]
        | argErr => cases s.correct <;> simp [h2]
  · intro hc hd hl hp
    unfold bathyRays
    rw [if_neg (by omega), if_neg (by rw [hp]; simp)]
    match rays, hl with
    | [r0, r1], _ =>
      subst hd
      rw [← toOut_pair]
      cases triangulatePair r0.1 r0.2 r1.1 r1.2 with
      | none => simp [bathyRays.finish, toOut, hc]
      | some q => simp [bathyRays.finish, toOut, hc]

/-- A state in which `set_bathy` succeeded. -/
def Ready {S : Type} (s : St K S) (r : K) (p0 p1 : BPlane K S) : Prop :=
  ∃ s', s = (setBathy s' r [p0, p1]).1 ∧ (setBathy s' r [p0, p1]).2 = false

theorem Ready.facts {S : Type} {s : St K S} {r : K} {p0 p1 : BPlane K S} (h : Ready s r p0 p1) :
    s.correct = true ∧ s.index = some r ∧ s.planes = [p0, p1] ∧ s.single = some (decide (p0.proj = p1.proj ∧ p0.coef = p1.coef)) ∧ 1 < r := by
  obtain ⟨s', rfl, h⟩ := h
  obtain ⟨h1, ⟨h2, h3, h4⟩, _, h5⟩ := setBathy_spec s' r [p0, p1]
  exact ⟨h2, h3, h4, h5 p0 p1 rfl h, (h1.1 h).1⟩

/-- **C103.** One surface: if the rays as they are meet above the water, or a ray cannot be bent, the result is the
uncorrected one and is reported as such; else it is the point closest to the two bent rays, which is the point itself if they
meet. -/
theorem one_plane {S : Type} (W : World K S) (sqrt : K → K) (dflt angleTol : K) (s : St K S) (r : K) (p0 p1 : BPlane K S) (hs : Ready s r p0 p1)
    (h1 : p0.proj = p1.proj ∧ p0.coef = p1.coef) (r0 r1 : Ray K) (hnp : nearlyParallel dflt angleTol [r0.1, r1.1] = false) (p e : V3 K)
    (hun : triangulatePair r0.1 r0.2 r1.1 r1.2 = some (p, e)) :
    (0 ≤ W.dist p0 p → bathyRays W sqrt dflt angleTol s [r0, r1] true = .out (.ok p e) false) ∧
    (W.bend p0 r r0.2 r0.1 = none ∨ W.bend p1 r r1.2 r1.1 = none → bathyRays W sqrt dflt angleTol s [r0, r1] true = .out (.ok p e) false) ∧
    (∀ c0 d0 c1 d1, W.dist p0 p < 0 → W.bend p0 r r0.2 r0.1 = some (c0, d0) → W.bend p1 r r1.2 r1.1 = some (c1, d1) →
      (cross d0 d1 = 0 → bathyRays W sqrt dflt angleTol s [r0, r1] true = .out .nan true) ∧
      (cross d0 d1 ≠ 0 → ∃ q f, bathyRays W sqrt dflt angleTol s [r0, r1] true = .out (.ok q f) true ∧ IsMidpoint d0 c0 d1 c1 q f ∧
        ∀ (X : V3 K) (a b : K), X = c0 + a * d0 → X = c1 + b * d1 → q = X ∧ f = 0)) := by
  obtain ⟨hc, hi, hp, hsi, hr⟩ := hs.facts
  rw [rays_two W sqrt dflt angleTol s r0 r1 hc hnp true, hun]
  have hfin : bathyRays.finish W s [r0, r1] true (some (p, e)) = onePlane W r p0 p1 r0 r1 (some (p, e)) := by
    unfold bathyRays.finish
    simp only [hc, hp, hi, hsi, decide_eq_true h1]
    rfl
  rw [hfin]
  unfold onePlane
  refine ⟨fun h => ?_, fun h => ?_, fun c0 d0 c1 d1 hlt hb0 hb1 => ?_⟩
  · rw [if_pos (by simp [h])]; rfl
  · by_cases h0 : 0 ≤ W.dist p0 p
    · rw [if_pos (by simp [h0])]; rfl
    · rw [if_neg (by simp only [decide_eq_true_eq]; exact h0)]
      cases hb : W.bend p0 r r0.2 r0.1 with
      | none => rfl
      | some q =>
        rcases h with h | h
        · rw [h] at hb; cases hb
        · obtain ⟨a, b⟩ := q; simp only [h]; rfl
  · rw [if_neg (by simp only [decide_eq_true_eq]; exact not_le.2 hlt), hb0]
    simp only [hb1]
    constructor
    · intro h; rw [(pair_spec d0 c0 d1 c1).1.2 h]; rfl
    · intro h
      obtain ⟨q, f, hq⟩ := pair_some d0 c0 d1 c1 h
      refine ⟨q, f, by rw [hq]; rfl, ((pair_spec d0 c0 d1 c1).2 q f hq).1, fun X a b ha hb => ?_⟩
      have := pair_exact d0 c0 d1 c1 X h a b ha hb
      rw [hq] at this
      cases this
      exact ⟨rfl, rfl⟩

/-- The parts of the two rays, before and after the water, that can meet: index true is the bent part. -/
def part (r : Ray K) (w : V3 K × V3 K) (b : Bool) : Ray K := if b then (w.2, w.1) else r

/-- The order in which the parts are tried. -/
def order : List (Bool × Bool) := [(false, false), (true, true), (false, true), (true, false)]

/-- A point is on the side of the surface where that part of the ray is. -/
def side (b : Bool) (x : K) : Prop := if b then x ≤ 0 else 0 ≤ x

/-- A pair of parts meets in a point (nearly, with the error vector) that is on the sides of the surfaces of these parts. -/
def Meets {S : Type} (W : World K S) (p0 p1 : BPlane K S) (r0 r1 : Ray K) (w0 w1 : V3 K × V3 K) (b : Bool × Bool) (p e : V3 K) : Prop :=
  cross (part r0 w0 b.1).1 (part r1 w1 b.2).1 ≠ 0 ∧
  IsMidpoint (part r0 w0 b.1).1 (part r0 w0 b.1).2 (part r1 w1 b.2).1 (part r1 w1 b.2).2 p e ∧
  side b.1 (W.dist p0 p) ∧ side b.2 (W.dist p1 p)

instance (b : Bool) (x : K) : Decidable (side b x) := by unfold side; infer_instance

theorem signs_iff {S : Type} (W : World K S) (p0 p1 : BPlane K S) (r0 r1 : Ray K) (w0 w1 : V3 K × V3 K) (b : Bool × Bool) (f0 f1 : K → Bool)
    (h0 : ∀ x, f0 x = true ↔ side b.1 x) (h1 : ∀ x, f1 x = true ↔ side b.2 x) (d0 c0 d1 c1 : V3 K)
    (e0 : part r0 w0 b.1 = (d0, c0)) (e1 : part r1 w1 b.2 = (d1, c1)) :
    ((∃ p e, Meets W p0 p1 r0 r1 w0 w1 b p e ∧ triangulatePair d0 c0 d1 c1 = some (p, e)) ∧ signs W p0 p1 f0 f1 (triangulatePair d0 c0 d1 c1) = true) ∨
    ((∀ p e, ¬Meets W p0 p1 r0 r1 w0 w1 b p e) ∧ signs W p0 p1 f0 f1 (triangulatePair d0 c0 d1 c1) = false) := by
  unfold Meets
  rw [e0, e1]
  cases ht : triangulatePair d0 c0 d1 c1 with
  | none =>
    refine Or.inr ⟨fun p e h => h.1 ((pair_spec d0 c0 d1 c1).1.1 ht), rfl⟩
  | some q =>
    obtain ⟨p, e⟩ := q
    have hm := ((pair_spec d0 c0 d1 c1).2 p e ht).1
    have hcr : cross d0 d1 ≠ 0 := fun h => by rw [(pair_spec d0 c0 d1 c1).1.2 h] at ht; cases ht
    by_cases hh : side b.1 (W.dist p0 p) ∧ side b.2 (W.dist p1 p)
    · refine Or.inl ⟨⟨p, e, ⟨hcr, hm, hh⟩, rfl⟩, ?_⟩
      simp only [signs, Bool.and_eq_true]
      exact ⟨(h0 _).2 hh.1, (h1 _).2 hh.2⟩
    · refine Or.inr ⟨fun p' e' h => ?_, ?_⟩
      · obtain ⟨rfl, rfl⟩ := isMidpoint_unique d0 c0 d1 c1 _ _ _ _ hm h.2.1
        exact hh h.2.2
      · simp only [signs]
        rw [Bool.eq_false_iff]
        intro h
        rw [Bool.and_eq_true] at h
        exact hh ⟨(h0 _).1 h.1, (h1 _).1 h.2⟩

/-- **C103.** Two surfaces: of the pairs of parts, unbent with unbent, bent with bent, unbent left with bent right, bent left
with unbent right, the first that meets on the right sides of both surfaces gives the result, corrected unless both are
unbent; if none does the result is zero. -/
theorem two_planes {S : Type} (W : World K S) (sqrt : K → K) (dflt angleTol : K) (s : St K S) (r : K) (p0 p1 : BPlane K S) (hs : Ready s r p0 p1)
    (h1 : ¬(p0.proj = p1.proj ∧ p0.coef = p1.coef)) (r0 r1 : Ray K) (hnp : nearlyParallel dflt angleTol [r0.1, r1.1] = false)
    (w0 w1 : V3 K × V3 K) (hb0 : W.bend p0 r r0.2 r0.1 = some w0) (hb1 : W.bend p1 r r1.2 r1.1 = some w1) :
    (∃ (k : Nat) (b : Bool × Bool) (p e : V3 K), order[k]? = some b ∧ Meets W p0 p1 r0 r1 w0 w1 b p e ∧
      (∀ j b', j < k → order[j]? = some b' → ∀ p' e', ¬Meets W p0 p1 r0 r1 w0 w1 b' p' e') ∧
      bathyRays W sqrt dflt angleTol s [r0, r1] true = .out (.ok p e) (b.1 || b.2)) ∨
    ((∀ b p' e', ¬Meets W p0 p1 r0 r1 w0 w1 b p' e') ∧ bathyRays W sqrt dflt angleTol s [r0, r1] true = .out (.ok 0 0) false) := by
  obtain ⟨hc, hi, hp, hsi, hr⟩ := hs.facts
  rw [rays_two W sqrt dflt angleTol s r0 r1 hc hnp true]
  obtain ⟨wc0, wd0⟩ := w0
  obtain ⟨wc1, wd1⟩ := w1
  have hfin : ∀ un, bathyRays.finish W s [r0, r1] true un = twoPlanes W r p0 p1 r0 r1 un := by
    intro un
    unfold bathyRays.finish
    simp only [hc, hp, hi, hsi, decide_eq_false h1]
    rfl
  rw [hfin]
  unfold twoPlanes
  rw [hb0]
  simp only [hb1]
  have ge : ∀ x : K, decide (0 ≤ x) = true ↔ side false x := fun x => by simp [side]
  have le : ∀ x : K, decide (x ≤ 0) = true ↔ side true x := fun x => by simp [side]
  rcases signs_iff W p0 p1 r0 r1 (wc0, wd0) (wc1, wd1) (false, false) _ _ ge ge r0.1 r0.2 r1.1 r1.2 rfl rfl with ⟨⟨p, e, hm, ht⟩, hsg⟩ | ⟨hn1, hsg⟩
  · rw [if_pos hsg]
    refine Or.inl ⟨0, (false, false), p, e, rfl, hm, fun j b' hj => absurd hj (Nat.not_lt_zero _), by rw [ht]; rfl⟩
  rw [if_neg (by rw [hsg]; simp)]
  rcases signs_iff W p0 p1 r0 r1 (wc0, wd0) (wc1, wd1) (true, true) _ _ le le wd0 wc0 wd1 wc1 rfl rfl with ⟨⟨p, e, hm, ht⟩, hsg⟩ | ⟨hn2, hsg⟩
  · rw [if_pos hsg]
    refine Or.inl ⟨1, (true, true), p, e, rfl, hm, fun j b' hj hb => ?_, by rw [ht]; rfl⟩
    obtain rfl : j = 0 := by omega
    cases hb; exact hn1
  rw [if_neg (by rw [hsg]; simp)]
  rcases signs_iff W p0 p1 r0 r1 (wc0, wd0) (wc1, wd1) (false, true) _ _ ge le r0.1 r0.2 wd1 wc1 rfl rfl with ⟨⟨p, e, hm, ht⟩, hsg⟩ | ⟨hn3, hsg⟩
  · rw [if_pos hsg]
    refine Or.inl ⟨2, (false, true), p, e, rfl, hm, fun j b' hj hb => ?_, by rw [ht]; rfl⟩
    rcases (show j = 0 ∨ j = 1 by omega) with rfl | rfl
    · cases hb; exact hn1
    · cases hb; exact hn2
  rw [if_neg (by rw [hsg]; simp)]
  rcases signs_iff W p0 p1 r0 r1 (wc0, wd0) (wc1, wd1) (true, false) _ _ le ge wd0 wc0 r1.1 r1.2 rfl rfl with ⟨⟨p, e, hm, ht⟩, hsg⟩ | ⟨hn4, hsg⟩
  · rw [if_pos hsg]
    refine Or.inl ⟨3, (true, false), p, e, rfl, hm, fun j b' hj hb => ?_, by rw [ht]; rfl⟩
    rcases (show j = 0 ∨ j = 1 ∨ j = 2 by omega) with rfl | rfl | rfl
    · cases hb; exact hn1
    · cases hb; exact hn2
    · cases hb; exact hn3
  rw [if_neg (by rw [hsg]; simp)]
  refine Or.inr ⟨fun b => ?_, rfl⟩
  obtain ⟨b0, b1⟩ := b
  cases b0 <;> cases b1
  · exact hn1
  · exact hn3
  · exact hn4
  · exact hn2

/-- **C103.** Two surfaces and a ray that cannot be bent: the uncorrected result, wherever it is. -/
theorem two_planes_unbent {S : Type} (W : World K S) (sqrt : K → K) (dflt angleTol : K) (s : St K S) (r : K) (p0 p1 : BPlane K S) (hs : Ready s r p0 p1)
    (h1 : ¬(p0.proj = p1.proj ∧ p0.coef = p1.coef)) (r0 r1 : Ray K) (hnp : nearlyParallel dflt angleTol [r0.1, r1.1] = false)
    (hb : W.bend p0 r r0.2 r0.1 = none ∨ W.bend p1 r r1.2 r1.1 = none) :
    bathyRays W sqrt dflt angleTol s [r0, r1] true = .out (triangulatePoint sqrt [r0, r1]) false := by
  obtain ⟨hc, hi, hp, hsi, hr⟩ := hs.facts
  rw [rays_two W sqrt dflt angleTol s r0 r1 hc hnp true, ← toOut_pair]
  unfold bathyRays.finish
  simp only [hc, hp, hi, hsi, decide_eq_false h1]
  unfold twoPlanes
  cases hb' : W.bend p0 r r0.2 r0.1 with
  | none => simp
  | some q =>
    rcases hb with h | h
    · rw [h] at hb'; cases hb'
    · simp [h]

/-- Planes as surfaces: the flat world. -/
def flat (sqrt : K → K) (P : BPlane K Unit → Plane K) : World K Unit := ⟨fun b => signedDist (P b), fun b r c v => snell sqrt (P b) r c v⟩

/-- **C103.** A point under flat water seen by two cameras: each camera's ray hits the surface, goes on refracted, and ends
at the point.  If the rays as they are meet below the surface, the point is found exactly. -/
theorem flat_exact (sqrt : K → K) (hq : IsSqrt sqrt) (P : BPlane K Unit → Plane K) (dflt angleTol : K) (s : St K Unit) (r : K) (p0 p1 : BPlane K Unit)
    (hs : Ready s r p0 p1) (h1 : p0.proj = p1.proj ∧ p0.coef = p1.coef) (hP : P p0 = P p1) (hn : sq (P p0).n = 1)
    (r0 r1 : Ray K) (hnp : nearlyParallel dflt angleTol [r0.1, r1.1] = false) (X : V3 K) (q o : Bool → V3 K)
    (hray : ∀ i : Bool, let ray := if i then r1 else r0
      sq ray.1 = 1 ∧ dot (P p0).n ray.1 < 0 ∧ dot (P p0).n ray.1 ≠ -1 ∧ signedDist (P p0) (q i) = 0 ∧ (∃ a : K, q i = ray.2 + a * ray.1) ∧
        Refracted (P p0).n r ray.1 (o i) ∧ ∃ t : K, X = q i + t * o i)
    (hpar : cross (o false) (o true) ≠ 0) (p e : V3 K) (hun : triangulatePair r0.1 r0.2 r1.1 r1.2 = some (p, e)) (hlow : signedDist (P p0) p < 0) :
    bathyRays (flat sqrt P) sqrt dflt angleTol s [r0, r1] true = .out (.ok X 0) true := by
  have hr := hs.facts.2.2.2.2
  obtain ⟨v0, n0, m0, s0, ⟨a0, ha0⟩, R0, t0, hX0⟩ := hray false
  obtain ⟨v1, n1, m1, s1, ⟨a1, ha1⟩, R1, t1, hX1⟩ := hray true
  simp only [Bool.false_eq_true, if_false, if_true] at *
  have b0 : (flat sqrt P).bend p0 r r0.2 r0.1 = some (q false, o false) :=
    snell_complete sqrt hq (P p0) r r0.2 r0.1 (q false) (o false) hn v0 hr n0 m0 s0 a0 ha0 R0
  have b1 : (flat sqrt P).bend p1 r r1.2 r1.1 = some (q true, o true) := by
    refine snell_complete sqrt hq (P p1) r r1.2 r1.1 (q true) (o true) ?_ v1 hr ?_ ?_ ?_ a1 ha1 ?_ <;> rw [← hP] <;> assumption
  obtain ⟨w, f, hw, -, hX⟩ := ((one_plane (flat sqrt P) sqrt dflt angleTol s r p0 p1 hs h1 r0 r1 hnp p e hun).2.2 _ _ _ _ hlow b0 b1).2 hpar
  obtain ⟨rfl, rfl⟩ := hX X t0 t1 hX0 hX1
  exact hw

/-- Non-vacuity of `flat_exact`: water at height 10, index 4/3, two cameras at height 13 looking at a point at depth 4, with
sines 4/5 in air and 3/5 in water. -/
example (sqrt : ℚ → ℚ) (hq : IsSqrt sqrt) (s' : St ℚ Unit) :
    let b : BPlane ℚ Unit := ⟨[0, 0, 1, -10], "p", ()⟩
    bathyRays (flat sqrt (fun _ => ⟨⟨0, 0, 1⟩, -10⟩)) sqrt (1 / 10000) 0 (setBathy s' (4 / 3) [b, b]).1
      [(⟨4 / 5, 0, -(3 / 5)⟩, ⟨0, 0, 13⟩), (⟨-(4 / 5), 0, -(3 / 5)⟩, ⟨14, 0, 13⟩)] true = .out (.ok ⟨7, 0, 6⟩ 0) true := by
  intro b
  refine flat_exact sqrt hq _ _ _ _ (4 / 3) b b ⟨s', rfl, ?_⟩ ⟨rfl, rfl⟩ rfl (by norm_num [sq, dot]) _ _ (by decide +kernel) _
    (fun i => if i then ⟨10, 0, 10⟩ else ⟨4, 0, 10⟩) (fun i => if i then ⟨-(3 / 5), 0, -(4 / 5)⟩ else ⟨3 / 5, 0, -(4 / 5)⟩) ?_ (by decide +kernel)
    ⟨7, 0, 31 / 4⟩ 0 (by decide +kernel) (by decide +kernel)
  · exact ((setBathy_spec s' (4 / 3) [b, b]).1.2 ⟨by norm_num, rfl, by simp [b]⟩)
  · intro i
    cases i
    · refine ⟨by decide +kernel, by decide +kernel, by decide +kernel, by decide +kernel, ⟨5, by decide +kernel⟩, ⟨by decide +kernel, by decide +kernel, by decide +kernel⟩, 5, by decide +kernel⟩
    · refine ⟨by decide +kernel, by decide +kernel, by decide +kernel, by decide +kernel, ⟨5, by decide +kernel⟩, ⟨by decide +kernel, by decide +kernel, by decide +kernel⟩, 5, by decide +kernel⟩

/-- **C103, refuted part.** A camera looking straight down on flat water: no correction at all, and the point returned, which
may be under water, is the uncorrected one. -/
theorem flat_nadir (sqrt : K → K) (P : BPlane K Unit → Plane K) (dflt angleTol : K) (s : St K Unit) (r : K) (p0 p1 : BPlane K Unit)
    (hs : Ready s r p0 p1) (r0 r1 : Ray K) (hnp : nearlyParallel dflt angleTol [r0.1, r1.1] = false)
    (h : dot (P p0).n r0.1 = -1 ∨ dot (P p1).n r1.1 = -1) (p e : V3 K) (hun : triangulatePair r0.1 r0.2 r1.1 r1.2 = some (p, e)) :
    bathyRays (flat sqrt P) sqrt dflt angleTol s [r0, r1] true = .out (.ok p e) false := by
  have hb : (flat sqrt P).bend p0 r r0.2 r0.1 = none ∨ (flat sqrt P).bend p1 r r1.2 r1.1 = none :=
    h.imp (fun h => snell_perpendicular sqrt _ r _ _ h) (fun h => snell_perpendicular sqrt _ r _ _ h)
  by_cases h1 : p0.proj = p1.proj ∧ p0.coef = p1.coef
  · exact (one_plane (flat sqrt P) sqrt dflt angleTol s r p0 p1 hs h1 r0 r1 hnp p e hun).2.1 hb
  · rw [two_planes_unbent (flat sqrt P) sqrt dflt angleTol s r p0 p1 hs h1 r0 r1 hnp hb, ← toOut_pair, hun]
    rfl

/-- Non-vacuity of `flat_nadir`: the point returned is below the water. -/
example : triangulatePair (⟨0, 0, -1⟩ : V3 ℚ) ⟨7, 0, 13⟩ ⟨-(4 / 5), 0, -(3 / 5)⟩ ⟨14, 0, 13⟩ = some (⟨7, 0, 31 / 4⟩, 0) := by decide +kernel

/-- **C103, refuted part.** A failed set-up is not without effect: the mode is on, and with cameras given as a list a call then
reads a member that was never set. -/
theorem setBathy_failed (W : World ℚ Unit) (sqrt : ℚ → ℚ) : ∃ (planes : List (BPlane ℚ Unit)) (rays : List (Ray ℚ)),
    let s := setBathy (St.ofList : St ℚ Unit) 1 planes
    s.2 = true ∧ s.1.correct = true ∧ bathyRays W sqrt (1 / 10000) 0 s.1 rays true = .undef := by
  refine ⟨[⟨[0, 0, 1, 0], "", ()⟩, ⟨[0, 0, 1, 0], "", ()⟩], [(⟨0, 0, -1⟩, ⟨0, 0, 1⟩), (⟨3 / 5, 0, -(4 / 5)⟩, ⟨0, 0, 1⟩)], ?_⟩
  refine ⟨by decide +kernel, by decide +kernel, ?_⟩
  rw [rays_two W sqrt _ _ _ _ _ (by decide +kernel) (by decide +kernel)]
  rfl

/-- **C103, refuted part.** Two different images of the water surface whose best-fit planes and projections are the same are
taken for one surface: a point above the left surface and below the right one is returned uncorrected, however the rays bend
and meet. -/
theorem surfaces_confused (W : World K K) (hW : ∀ b (p : V3 K), W.dist b p = p.z - b.surface) (sqrt : K → K) (dflt angleTol : K) (s : St K K) (r : K)
    (p0 p1 : BPlane K K) (hs : Ready s r p0 p1) (h1 : p0.proj = p1.proj ∧ p0.coef = p1.coef) (r0 r1 : Ray K)
    (hnp : nearlyParallel dflt angleTol [r0.1, r1.1] = false) (p e : V3 K) (hun : triangulatePair r0.1 r0.2 r1.1 r1.2 = some (p, e))
    (hup : p0.surface ≤ p.z) : bathyRays W sqrt dflt angleTol s [r0, r1] true = .out (.ok p e) false :=
  (one_plane W sqrt dflt angleTol s r p0 p1 hs h1 r0 r1 hnp p e hun).1 (by rw [hW]; linarith)

/-- Non-vacuity of `surfaces_confused`: the point is below the right surface. -/
example (s' : St ℚ ℚ) : let b0 : BPlane ℚ ℚ := ⟨[0, 0, 1, 0], "p", 2⟩
    let b1 : BPlane ℚ ℚ := ⟨[0, 0, 1, 0], "p", 9⟩
    Ready (setBathy s' (4 / 3) [b0, b1]).1 (4 / 3) b0 b1 ∧ b0.surface ≤ 31 / 4 ∧ 31 / 4 < b1.surface := by
  intro b0 b1
  exact ⟨⟨s', rfl, (setBathy_spec s' (4 / 3) [b0, b1]).1.2 ⟨by norm_num, rfl, by simp [b0, b1]⟩⟩, by norm_num [b0], by norm_num [b1]⟩

/-- Non-vacuity of `two_planes`: planes at heights 10 and 12, every bent part parallel to the ray and lower by one. -/
example : let b0 : BPlane ℚ Unit := ⟨[0, 0, 1, -10], "p", ()⟩
    let b1 : BPlane ℚ Unit := ⟨[0, 0, 1, -12], "p", ()⟩
    ¬(b0.proj = b1.proj ∧ b0.coef = b1.coef) ∧ nearlyParallel (1 / 10000 : ℚ) 0 [⟨4 / 5, 0, -(3 / 5)⟩, ⟨-(4 / 5), 0, -(3 / 5)⟩] = false := by
  decide +kernel

end Verif.Camera.Bathy
