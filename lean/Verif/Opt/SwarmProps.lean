import Verif.Opt.Swarm
import Mathlib.Tactic.Linarith
import Mathlib.Tactic.Ring
import Mathlib.Tactic.FieldSimp
import Mathlib.Tactic.NormNum
import Mathlib.Algebra.Order.Ring.Rat

/-
C89: particle swarm optimisation.
-/

namespace Verif.Opt

set_option linter.unusedSectionVars false

variable {K : Type} [Field K] [LinearOrder K]

/-! ## Iterations -/

/-- What the updates of particles do to the best point. -/
structure Improves (f : List K → K) (g g' : Global K) (new : List (List K)) : Prop where
  evals : g'.evals = g.evals ++ new
  mono : g'.gval ≤ g.gval
  below : ∀ q ∈ new, g'.gval ≤ f q
  point : (g'.ghat = g.ghat ∧ g'.gval = g.gval) ∨ (g'.gval = f g'.ghat ∧ g'.gval < g.gval ∧ g'.ghat ∈ new)

theorem Improves.refl (f : List K → K) (g : Global K) : Improves f g g [] :=
  ⟨by simp, le_rfl, by simp, Or.inl ⟨rfl, rfl⟩⟩

theorem Improves.trans {f : List K → K} {g g' g'' : Global K} {a b : List (List K)} (h : Improves f g g' a)
    (h' : Improves f g' g'' b) : Improves f g g'' (a ++ b) := by
  refine ⟨by rw [h'.evals, h.evals, List.append_assoc], h'.mono.trans h.mono, fun q hq => ?_, ?_⟩
  · rcases List.mem_append.1 hq with e | e
    · exact h'.mono.trans (h.below q e)
    · exact h'.below q e
  · rcases h'.point with ⟨e1, e2⟩ | ⟨e1, e2, e3⟩
    · rcases h.point with ⟨d1, d2⟩ | ⟨d1, d2, d3⟩
      · exact Or.inl ⟨e1.trans d1, e2.trans d2⟩
      · exact Or.inr ⟨by rw [e2, e1]; exact d1, by rw [e2]; exact d2, List.mem_append_left _ (e1 ▸ d3)⟩
    · exact Or.inr ⟨e1, lt_of_lt_of_le e2 h.mono, List.mem_append_right _ e3⟩

theorem moveParticle_x (S : Swarm K) (c : Nat) (gh : List K) (p : Particle K) :
    (moveParticle S c gh p).x = vadd p.x p.v := by
  unfold moveParticle
  simp only
  split <;> rfl

theorem sweep_improves (S : Swarm K) (c : Nat) (ps : List (Particle K)) (g : Global K) :
    Improves S.f g (sweep S c ps g).2 (ps.map (fun p => vadd p.x p.v)) := by
  induction ps generalizing c g with
  | nil => exact Improves.refl _ _
  | cons p ps ih =>
    have hx := moveParticle_x S c g.ghat p
    unfold sweep
    simp only [hx, List.map_cons]
    refine Improves.trans (a := [vadd p.x p.v]) ?_ (ih _ _)
    by_cases h : S.f (vadd p.x p.v) < g.gval
    · simp only [h, if_true]
      exact ⟨rfl, h.le, by simp, Or.inr ⟨rfl, h, by simp⟩⟩
    · simp only [h, if_false]
      refine ⟨rfl, le_rfl, fun q hq => ?_, Or.inl ⟨rfl, rfl⟩⟩
      rw [List.mem_singleton.1 hq]; exact not_lt.1 h

theorem sweeps_improves (S : Swarm K) (k c : Nat) (ps : List (Particle K)) (g : Global K) :
    ∃ new, Improves S.f g (sweeps S k c ps g).2 new ∧
      (1 ≤ k → ∀ p ∈ ps, vadd p.x p.v ∈ new) := by
  induction k generalizing c ps g with
  | zero => exact ⟨[], Improves.refl _ _, fun h => absurd h (by simp)⟩
  | succ k ih =>
    unfold sweeps
    obtain ⟨new, h, -⟩ := ih (c + 2 * S.mn.length * S.particles) (sweep S c ps g).1 (sweep S c ps g).2
    exact ⟨_, (sweep_improves S c ps g).trans h, fun _ p hp =>
      List.mem_append_left _ (List.mem_map.2 ⟨p, hp, rfl⟩)⟩

/-! ## The start of a run -/

/-- The box is given with as many lower as upper bounds. -/
def Box (S : Swarm K) : Prop := S.mn.length = S.mx.length

theorem initParticle_v (S : Swarm K) (hb : Box S) (c : Nat) :
    vadd (initParticle S c).x (initParticle S c).v = (initParticle S c).x := by
  unfold initParticle vadd
  simp only
  generalize hx : (S.mn.zip S.mx).zipIdx.map (fun p => S.rnd (c + p.2) * (p.1.2 - p.1.1) + p.1.1) = x
  have hl : x.length = S.mn.length := by rw [← hx]; simp; exact hb.le
  rw [← hl]
  clear hl hx
  induction x with
  | nil => rfl
  | cons a as ih => simp [List.replicate_succ, ih]

theorem initAll_v (S : Swarm K) (hb : Box S) (c : Nat) : ∀ p ∈ initAll S c, vadd p.x p.v = p.x := by
  intro p hp
  obtain ⟨i, -, rfl⟩ := List.mem_map.1 hp
  exact initParticle_v S hb _

/-- The search at the start of a run: nothing better found; or a better point was found and the value recorded is 1. -/
theorem initGlobal_spec (S : Swarm K) (ps : List (Particle K)) (g : Global K) :
    (initGlobal S ps g).evals = g.evals ++ ps.map Particle.x ∧
    (((initGlobal S ps g).ghat = g.ghat ∧ (initGlobal S ps g).gval = g.gval ∧ ∀ p ∈ ps, g.gval ≤ S.f p.x) ∨
     ((initGlobal S ps g).gval = 1 ∧ (∃ p ∈ ps, S.f p.x < g.gval) ∧ (initGlobal S ps g).ghat ∈ ps.map Particle.x ∧
       ((∀ p ∈ ps, 1 ≤ S.f p.x) → S.f (initGlobal S ps g).ghat < g.gval))) := by
  induction ps generalizing g with
  | nil => exact ⟨by simp [initGlobal], Or.inl ⟨rfl, rfl, by simp⟩⟩
  | cons p ps ih =>
    unfold initGlobal
    by_cases h : S.f p.x < g.gval
    · simp only [h, if_true]
      obtain ⟨h1, h2⟩ := ih { ghat := p.x, gval := 1, evals := g.evals ++ [p.x] }
      refine ⟨by rw [h1]; simp, Or.inr ?_⟩
      rcases h2 with ⟨a1, a2, a3⟩ | ⟨a1, ⟨q, hq, hq'⟩, a3, a4⟩
      · exact ⟨a2, ⟨p, List.mem_cons_self, h⟩, by rw [a1]; simp, fun _ => by rw [a1]; exact h⟩
      · refine ⟨a1, ⟨p, List.mem_cons_self, h⟩, List.mem_cons_of_mem _ a3, fun hall => ?_⟩
        exact absurd hq' (not_lt.2 (hall q (List.mem_cons_of_mem _ hq)))
    · simp only [h, if_false]
      obtain ⟨h1, h2⟩ := ih { ghat := g.ghat, gval := g.gval, evals := g.evals ++ [p.x] }
      refine ⟨by rw [h1]; simp, ?_⟩
      rcases h2 with ⟨a1, a2, a3⟩ | ⟨a1, ⟨q, hq, hq'⟩, a3, a4⟩
      · refine Or.inl ⟨a1, a2, fun q hq => ?_⟩
        rcases List.mem_cons.1 hq with e | e
        · rw [e]; exact not_lt.1 h
        · exact a3 q e
      · exact Or.inr ⟨a1, ⟨q, List.mem_cons_of_mem _ hq, hq'⟩, List.mem_cons_of_mem _ a3,
          fun hall => a4 (fun p hp => hall p (List.mem_cons_of_mem _ hp))⟩

/-! ## Runs -/

/-- What holds between runs, whatever the function. -/
def Sound (S : Swarm K) (g : Global K) : Prop :=
  S.f g.ghat ≤ S.f S.mn ∧ (g.gval = S.f g.ghat ∨ (g.gval = 1 ∧ 1 ≤ S.f g.ghat))

theorem run_sound (S : Swarm K) (hb : Box S) (hi : 1 ≤ S.iters) (c : Nat) (g : Global K) (hg : Sound S g) :
    Sound S (swarmRun S c g) := by
  obtain ⟨h1, h2⟩ := hg
  have hle : g.gval ≤ S.f g.ghat := by
    rcases h2 with e | ⟨e, e'⟩
    · exact e.le
    · rw [e]; exact e'
  unfold swarmRun
  simp only
  have hv := initAll_v S hb c
  generalize initAll S c = ps at hv
  obtain ⟨-, hs⟩ := initGlobal_spec S ps g
  generalize initGlobal S ps g = g1 at hs
  obtain ⟨new, him, hnew⟩ := sweeps_improves S S.iters (c + S.mn.length * S.particles) ps g1
  generalize (sweeps S S.iters (c + S.mn.length * S.particles) ps g1).2 = g2 at him
  rcases hs with ⟨a1, a2, a3⟩ | ⟨a1, ⟨t, ht, ht'⟩, a3, a4⟩
  · rcases him.point with ⟨b1, b2⟩ | ⟨b1, b2, b3⟩
    · unfold Sound
      rw [b1, b2, a1, a2]; exact ⟨h1, h2⟩
    · refine ⟨?_, Or.inl b1⟩
      rw [← b1]
      exact ((b2.le.trans a2.le).trans hle).trans h1
  · have ht2 : g2.gval ≤ S.f t.x := by
      have := hnew hi t ht
      rw [hv t ht] at this
      exact him.below _ this
    rcases him.point with ⟨b1, b2⟩ | ⟨b1, b2, b3⟩
    · -- nothing below 1 was found
      have hall : ∀ p ∈ ps, 1 ≤ S.f p.x := fun p hp => by
        have := hnew hi p hp
        rw [hv p hp] at this
        have := him.below _ this
        rw [b2, a1] at this
        exact this
      refine ⟨?_, Or.inr ⟨by rw [b2, a1], ?_⟩⟩
      · rw [b1]; exact ((a4 hall).le.trans hle).trans h1
      · rw [b1]
        obtain ⟨p, hp, e⟩ := List.mem_map.1 a3
        rw [← e]; exact hall p hp
    · refine ⟨?_, Or.inl b1⟩
      rw [← b1]
      exact (ht2.trans (ht'.le.trans hle)).trans h1

/-- **C89.** With at least one iteration for each run, the result is never worse than the lower corner of the box. -/
theorem swarm_descends (S : Swarm K) (hb : Box S) (hi : 1 ≤ S.iters) (restarts : Nat) :
    S.f (swarm S restarts).ghat ≤ S.f S.mn := by
  have key : ∀ (k c : Nat) (g : Global K), Sound S g → Sound S (swarmRuns S k c g) := by
    intro k
    induction k with
    | zero => intro c g hg; exact hg
    | succ k ih => intro c g hg; exact ih _ _ (run_sound S hb hi c g hg)
  exact (key restarts 0 _ ⟨le_rfl, Or.inl rfl⟩).1

/-- What holds between runs if all values are below 1. -/
def Accurate (S : Swarm K) (g : Global K) : Prop := g.gval = S.f g.ghat ∧ (∀ q ∈ g.evals, g.gval ≤ S.f q) ∧ g.ghat ∈ g.evals

theorem run_accurate (S : Swarm K) (hb : Box S) (hi : 1 ≤ S.iters) (hf : ∀ p, S.f p < 1) (c : Nat) (g : Global K)
    (hg : Accurate S g) : Accurate S (swarmRun S c g) := by
  obtain ⟨h1, h2, h3⟩ := hg
  unfold swarmRun
  simp only
  have hv := initAll_v S hb c
  generalize initAll S c = ps at hv
  obtain ⟨he, hs⟩ := initGlobal_spec S ps g
  generalize initGlobal S ps g = g1 at hs he
  obtain ⟨new, him, hnew⟩ := sweeps_improves S S.iters (c + S.mn.length * S.particles) ps g1
  generalize (sweeps S S.iters (c + S.mn.length * S.particles) ps g1).2 = g2 at him
  have hps : ∀ p ∈ ps, g2.gval ≤ S.f p.x := fun p hp => by
    have := hnew hi p hp
    rw [hv p hp] at this
    exact him.below _ this
  have hev : (∀ q ∈ g.evals, g2.gval ≤ S.f q) → ∀ q ∈ g2.evals, g2.gval ≤ S.f q := by
    intro h q hq
    rw [him.evals, he] at hq
    rcases List.mem_append.1 hq with e | e
    · rcases List.mem_append.1 e with e | e
      · exact h q e
      · obtain ⟨p, hp, rfl⟩ := List.mem_map.1 e
        exact hps p hp
    · exact him.below q e
  rcases hs with ⟨a1, a2, a3⟩ | ⟨a1, ⟨t, ht, ht'⟩, a3, a4⟩
  · have hm : g2.gval ≤ g.gval := him.mono.trans a2.le
    refine ⟨?_, hev (fun q hq => hm.trans (h2 q hq)), ?_⟩
    · rcases him.point with ⟨b1, b2⟩ | ⟨b1, b2, b3⟩
      · rw [b1, b2, a1, a2]; exact h1
      · exact b1
    · rw [him.evals, he]
      rcases him.point with ⟨b1, b2⟩ | ⟨b1, b2, b3⟩
      · rw [b1, a1]; exact List.mem_append_left _ (List.mem_append_left _ h3)
      · exact List.mem_append_right _ b3
  · have hlt : g2.gval < 1 := lt_of_le_of_lt (hps t ht) (hf _)
    rcases him.point with ⟨b1, b2⟩ | ⟨b1, b2, b3⟩
    · rw [b2, a1] at hlt; exact absurd hlt (lt_irrefl _)
    · refine ⟨b1, hev (fun q hq => ?_), ?_⟩
      · exact (hps t ht).trans (ht'.le.trans (h2 q hq))
      · rw [him.evals]; exact List.mem_append_right _ b3

/-- **C89.** If all values of the function are below 1 and each run has at least one iteration, the result is the best of
all points at which the function was evaluated. -/
theorem swarm_best (S : Swarm K) (hb : Box S) (hi : 1 ≤ S.iters) (hf : ∀ p, S.f p < 1) (restarts : Nat) :
    (swarm S restarts).ghat ∈ (swarm S restarts).evals ∧
      ∀ q ∈ (swarm S restarts).evals, S.f (swarm S restarts).ghat ≤ S.f q := by
  have key : ∀ (k c : Nat) (g : Global K), Accurate S g → Accurate S (swarmRuns S k c g) := by
    intro k
    induction k with
    | zero => intro c g hg; exact hg
    | succ k ih => intro c g hg; exact ih _ _ (run_accurate S hb hi hf c g hg)
  obtain ⟨h1, h2, h3⟩ := key restarts 0 ⟨S.mn, S.f S.mn, [S.mn]⟩ ⟨rfl, by simp, by simp⟩
  exact ⟨h3, fun q hq => h1 ▸ h2 q hq⟩

/-- **C89.** The result is the lower corner or another point at which the function was evaluated; all starts of particles
are among these. -/
theorem swarm_evaluated (S : Swarm K) (restarts : Nat) :
    (swarm S restarts).ghat ∈ (swarm S restarts).evals := by
  have key : ∀ (k c : Nat) (g : Global K), g.ghat ∈ g.evals → (swarmRuns S k c g).ghat ∈ (swarmRuns S k c g).evals := by
    intro k
    induction k with
    | zero => intro c g hg; exact hg
    | succ k ih =>
      intro c g hg
      refine ih _ _ ?_
      unfold swarmRun
      simp only
      generalize initAll S c = ps
      obtain ⟨he, hs⟩ := initGlobal_spec S ps g
      generalize initGlobal S ps g = g1 at hs he
      obtain ⟨new, him, -⟩ := sweeps_improves S S.iters (c + S.mn.length * S.particles) ps g1
      have hg1 : g1.ghat ∈ g1.evals := by
        rw [he]
        rcases hs with ⟨a1, -⟩ | ⟨-, -, a3, -⟩
        · rw [a1]; exact List.mem_append_left _ hg
        · exact List.mem_append_right _ a3
      rw [him.evals]
      rcases him.point with ⟨b1, -⟩ | ⟨-, -, b3⟩
      · rw [b1]; exact List.mem_append_left _ hg1
      · exact List.mem_append_right _ b3
  exact key restarts 0 _ (by simp)

/-! ## The value 1 -/

theorem initGlobal_first (S : Swarm K) (ps qs : List (Particle K)) (p : Particle K) (g : Global K)
    (hps : ∀ q ∈ ps, g.gval ≤ S.f q.x) (hp : S.f p.x < g.gval) (hqs : ∀ q ∈ qs, 1 ≤ S.f q.x) :
    (initGlobal S (ps ++ p :: qs) g).ghat = p.x ∧ (initGlobal S (ps ++ p :: qs) g).gval = 1 := by
  induction ps generalizing g with
  | nil =>
    simp only [List.nil_append]
    unfold initGlobal
    simp only [hp, if_true]
    obtain ⟨-, h⟩ := initGlobal_spec S qs { ghat := p.x, gval := 1, evals := g.evals ++ [p.x] }
    rcases h with ⟨a1, a2, -⟩ | ⟨-, ⟨t, ht, ht'⟩, -⟩
    · exact ⟨a1, a2⟩
    · exact absurd ht' (not_lt.2 (hqs t ht))
  | cons q ps ih =>
    simp only [List.cons_append]
    unfold initGlobal
    have : ¬ S.f q.x < g.gval := not_lt.2 (hps q List.mem_cons_self)
    simp only [this, if_false]
    exact ih { g with evals := g.evals ++ [q.x] } (fun r hr => hps r (List.mem_cons_of_mem _ hr)) hp

/-- Refuted: the result is the best point found.  If no value is below 1, the result is the first start of a particle
that is better than the lower corner; neither the other starts nor any iteration or further run can change that. -/
theorem swarm_stuck (S : Swarm K) (hf : ∀ p, 1 ≤ S.f p) (ps qs : List (Particle K)) (p : Particle K)
    (h : initAll S 0 = ps ++ p :: qs) (hps : ∀ q ∈ ps, S.f S.mn ≤ S.f q.x) (hp : S.f p.x < S.f S.mn) (k : Nat) :
    (swarm S (k + 1)).ghat = p.x := by
  have step : ∀ (j c : Nat) (qs : List (Particle K)) (g : Global K), g.gval = 1 →
      (sweeps S j c qs g).2.ghat = g.ghat ∧ (sweeps S j c qs g).2.gval = 1 := by
    intro j c qs g hg
    obtain ⟨new, him, -⟩ := sweeps_improves S j c qs g
    rcases him.point with ⟨b1, b2⟩ | ⟨b1, b2, -⟩
    · exact ⟨b1, b2.trans hg⟩
    · rw [b1, hg] at b2; exact absurd b2 (not_lt.2 (hf _))
  have runs : ∀ (k c : Nat) (g : Global K), g.gval = 1 → (swarmRuns S k c g).ghat = g.ghat := by
    intro k
    induction k with
    | zero => intro c g _; rfl
    | succ k ih =>
      intro c g hg
      have hrun : (swarmRun S c g).ghat = g.ghat ∧ (swarmRun S c g).gval = 1 := by
        unfold swarmRun
        simp only
        obtain ⟨-, hs⟩ := initGlobal_spec S (initAll S c) g
        rcases hs with ⟨a1, a2, -⟩ | ⟨-, ⟨t, -, ht'⟩, -⟩
        · obtain ⟨e1, e2⟩ := step S.iters (c + S.mn.length * S.particles) (initAll S c) _ (a2.trans hg)
          exact ⟨e1.trans a1, e2⟩
        · rw [hg] at ht'; exact absurd ht' (not_lt.2 (hf _))
      unfold swarmRuns
      rw [ih _ _ hrun.2]; exact hrun.1
  unfold swarm swarmRuns
  have h0 := initGlobal_first S ps qs p ⟨S.mn, S.f S.mn, [S.mn]⟩ hps hp (fun q _ => hf _)
  have hrun : (swarmRun S 0 ⟨S.mn, S.f S.mn, [S.mn]⟩).ghat = p.x ∧
      (swarmRun S 0 ⟨S.mn, S.f S.mn, [S.mn]⟩).gval = 1 := by
    unfold swarmRun
    simp only [h]
    obtain ⟨e1, e2⟩ := step S.iters (0 + S.mn.length * S.particles) (ps ++ p :: qs) _ h0.2
    exact ⟨e1.trans h0.1, e2⟩
  rw [runs _ _ _ hrun.2]; exact hrun.1

/-! ## Starts and velocities -/

/-- **C89.** The particles start inside the box. -/
theorem swarm_starts [IsStrictOrderedRing K] (S : Swarm K) (hr : ∀ c, 0 ≤ S.rnd c ∧ S.rnd c ≤ 1) (c i : Nat) (a b y : K)
    (ha : S.mn[i]? = some a) (hb : S.mx[i]? = some b) (hab : a ≤ b) (hy : (initParticle S c).x[i]? = some y) :
    a ≤ y ∧ y ≤ b := by
  unfold initParticle at hy
  simp only [List.getElem?_map, List.getElem?_zipIdx, List.zip, List.getElem?_zipWith, ha, hb] at hy
  simp at hy
  subst hy
  obtain ⟨h0, h1⟩ := hr (c + i)
  have h2 : 0 ≤ S.rnd (c + i) * (b - a) := mul_nonneg h0 (by linarith)
  have h3 : S.rnd (c + i) * (b - a) ≤ 1 * (b - a) := mul_le_mul_of_nonneg_right h1 (by linarith)
  constructor <;> linarith

theorem normSq_div (v : List K) (r : K) : normSq (vdiv v r) = normSq v / (r * r) := by
  induction v with
  | nil => simp [normSq, vdiv]
  | cons a as ih =>
    simp only [normSq, vdiv, List.map_cons, List.foldr_cons] at ih ⊢
    rw [ih, add_div, div_mul_div_comm]

/-- **C89.** After an update no particle is faster than the larger of the greatest speed allowed and 1: one that would be
too fast is set to speed 1, not to the greatest speed. -/
theorem swarm_speed [IsStrictOrderedRing K] (S : Swarm K) (hroot : ∀ x, 0 ≤ x → S.root x * S.root x = x) (c : Nat)
    (gh : List K) (p : Particle K) :
    normSq (moveParticle S c gh p).v ≤ S.vmax * S.vmax ∨ normSq (moveParticle S c gh p).v = 1 := by
  have hv : ∃ v, (moveParticle S c gh p).v = if S.vmax * S.vmax < normSq v then vdiv v (S.root (normSq v)) else v := by
    unfold moveParticle
    simp only
    split <;> exact ⟨_, rfl⟩
  obtain ⟨v, hv⟩ := hv
  rw [hv]
  by_cases h : S.vmax * S.vmax < normSq v
  · rw [if_pos h]
    right
    have h0 : 0 < normSq v := lt_of_le_of_lt (mul_self_nonneg _) h
    rw [normSq_div, hroot _ h0.le, div_self h0.ne']
  · rw [if_neg h]; exact Or.inl (not_lt.1 h)

/-! ## Cases -/

/-- One dimension, the box from 0 to 1, two particles, a function that decreases to the right.  The random numbers are
1/2 and then 1. -/
def slope (f : List ℚ → ℚ) (iters : Nat) : Swarm ℚ where
  f := f
  mn := [0]
  mx := [1]
  particles := 2
  iters := iters
  w := 9 / 10
  c1 := 2
  c2 := 2
  vmax := 4
  root := id
  rnd c := if c = 0 then 1 / 2 else 1

/-- Refuted: the search stays in the box. -/
theorem swarm_leaves_box : (swarm (slope (fun p => -p.headD 0) 2) 1).ghat = [3 / 2] := by decide +kernel

/-- The case of `swarm_stuck`: the function is 3 at the corner, 2 at the first start and 1 at the second, but the result is
the first, after however many iterations. -/
theorem swarm_not_best (iters k : Nat) :
    (swarm (slope (fun p => if p = [0] then 3 else if p = [1 / 2] then 2 else 1) iters) (k + 1)).ghat = [1 / 2] ∧
    [1] ∈ (initAll (slope (fun p => if p = [0] then 3 else if p = [1 / 2] then 2 else 1) iters) 0).map Particle.x := by
  generalize hS : slope (fun p => if p = [0] then 3 else if p = [1 / 2] then 2 else 1) iters = S
  have hf : ∀ p, 1 ≤ S.f p := fun p => by
    rw [← hS]
    simp only [slope]
    split
    · norm_num
    · split <;> norm_num
  have hx0 : (initParticle S (0 + 0 * S.mn.length)).x = [1 / 2] := by
    rw [← hS]; simp [slope, initParticle]
  have hx1 : (initParticle S (0 + 1 * S.mn.length)).x = [1] := by
    rw [← hS]; simp [slope, initParticle]
  have hall : initAll S 0 = [] ++ initParticle S (0 + 0 * S.mn.length) :: [initParticle S (0 + 1 * S.mn.length)] := by
    have : S.particles = 2 := by rw [← hS]; rfl
    simp [initAll, this, List.range_succ]
  refine ⟨?_, List.mem_map.2 ⟨_, by rw [hall]; exact List.mem_cons_of_mem _ List.mem_cons_self, hx1⟩⟩
  rw [swarm_stuck S hf [] _ _ hall (by simp) ?_ k, hx0]
  rw [hx0, ← hS]
  simp only [slope]
  norm_num

/-- Refuted without iterations: the result is not worse than the corner.  A first start of value -5 is recorded as 1, and
then a second of value 1/2 replaces it. -/
theorem swarm_worse :
    (swarm (slope (fun p => if p = [0] then 0 else if p = [1 / 2] then -5 else 1 / 2) 0) 1).ghat = [1] := by
  decide +kernel

/-- `swarm_best` applies to a function with values below 1. -/
example : Box (slope (fun p => if p.headD 0 < 0 then 0 else -p.headD 0) 2) ∧
    ∀ p : List ℚ, (if p.headD 0 < 0 then 0 else -p.headD 0) < 1 := by
  refine ⟨rfl, fun p => ?_⟩
  split <;> linarith

end Verif.Opt
