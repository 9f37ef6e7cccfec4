import Verif.Opt.NelderMead
import Mathlib.Algebra.Order.Field.Basic

/-
Model of src/vw/Math/ParticleSwarmOptimization.h.  Numbers are an ordered field (exact arithmetic); `root` is the square
root, `rnd c` the `c`-th value of `rand()/RAND_MAX` asked for.  The function is total and without side effects.
The points at which the function is evaluated are collected as well.
-/

namespace Verif.Opt

variable {K : Type} [Field K] [LinearOrder K]

/-- What does not change during the search (src/vw/Math/ParticleSwarmOptimization.h:49-52). -/
structure Swarm (K : Type) where
  f : List K → K
  mn : List K
  mx : List K
  particles : Nat
  iters : Nat
  w : K
  c1 : K
  c2 : K
  vmax : K
  root : K → K
  rnd : Nat → K

/-- `x[i]`, `x_hat[i]`, `x_hat_val[i]`, `v[i]` (src/vw/Math/ParticleSwarmOptimization.h:54-57). -/
structure Particle (K : Type) where
  x : List K
  xhat : List K
  xhatVal : K
  v : List K

/-- `g_hat` and `g_hat_val` (src/vw/Math/ParticleSwarmOptimization.h:61-62), and the points evaluated. -/
structure Global (K : Type) where
  ghat : List K
  gval : K
  evals : List (List K)

/-- The start of a particle (src/vw/Math/ParticleSwarmOptimization.h:71-81). -/
def initParticle (S : Swarm K) (c : Nat) : Particle K :=
  let x := (S.mn.zip S.mx).zipIdx.map (fun p => S.rnd (c + p.2) * (p.1.2 - p.1.1) + p.1.1)
  ⟨x, x, S.f x, List.replicate S.mn.length 0⟩

/-- The start of all particles (src/vw/Math/ParticleSwarmOptimization.h:70-82). -/
def initAll (S : Swarm K) (c : Nat) : List (Particle K) :=
  (List.range S.particles).map (fun i => initParticle S (c + i * S.mn.length))

/-- The search of the best particle at the start (src/vw/Math/ParticleSwarmOptimization.h:87-92).  The value assigned to
`d` is that of the comparison, which is 1. -/
def initGlobal (S : Swarm K) : List (Particle K) → Global K → Global K
  | [], g => g
  | p :: ps, g =>
    let g := { g with evals := g.evals ++ [p.x] }
    initGlobal S ps (if S.f p.x < g.gval then { g with ghat := p.x, gval := 1 } else g)

/-- The product of two vectors by coordinates. -/
def vprod (a b : List K) : List K := List.zipWith (· * ·) a b

/-- `norm_2_sqr` -/
def normSq (v : List K) : K := (v.map (fun a => a * a)).foldr (· + ·) 0

/-- The update of a particle (src/vw/Math/ParticleSwarmOptimization.h:107-126). -/
def moveParticle (S : Swarm K) (c : Nat) (ghat : List K) (p : Particle K) : Particle K :=
  let r1 := (List.range S.mn.length).map (fun j => S.rnd (c + 2 * j))
  let r2 := (List.range S.mn.length).map (fun j => S.rnd (c + 2 * j + 1))
  let x := vadd p.x p.v
  let v := vadd (vadd (vmul S.w p.v) (vmul S.c1 (vprod r1 (vsub p.xhat x)))) (vmul S.c2 (vprod r2 (vsub ghat x)))
  let v := if S.vmax * S.vmax < normSq v then vdiv v (S.root (normSq v)) else v
  if S.f x < p.xhatVal then ⟨x, x, S.f x, v⟩ else { p with x := x, v := v }

/-- The update of all particles and of the best point (src/vw/Math/ParticleSwarmOptimization.h:105-140). -/
def sweep (S : Swarm K) (c : Nat) : List (Particle K) → Global K → List (Particle K) × Global K
  | [], g => ([], g)
  | p :: ps, g =>
    let p' := moveParticle S c g.ghat p
    let g := { g with evals := g.evals ++ [p'.x] }
    let g := if S.f p'.x < g.gval then { g with ghat := p'.x, gval := S.f p'.x } else g
    let r := sweep S (c + 2 * S.mn.length) ps g
    (p' :: r.1, r.2)

/-- The iterations (src/vw/Math/ParticleSwarmOptimization.h:102-141). -/
def sweeps (S : Swarm K) : Nat → Nat → List (Particle K) → Global K → List (Particle K) × Global K
  | 0, _, ps, g => (ps, g)
  | k + 1, c, ps, g =>
    let r := sweep S c ps g
    sweeps S k (c + 2 * S.mn.length * S.particles) r.1 r.2

/-- A run (src/vw/Math/ParticleSwarmOptimization.h:66-142). -/
def swarmRun (S : Swarm K) (c : Nat) (g : Global K) : Global K :=
  let ps := initAll S c
  (sweeps S S.iters (c + S.mn.length * S.particles) ps (initGlobal S ps g)).2

/-- The runs (src/vw/Math/ParticleSwarmOptimization.h:66-142). -/
def swarmRuns (S : Swarm K) : Nat → Nat → Global K → Global K
  | 0, _, g => g
  | k + 1, c, g => swarmRuns S k (c + S.mn.length * S.particles * (1 + 2 * S.iters)) (swarmRun S c g)

/-- `particle_swarm_optimization` (src/vw/Math/ParticleSwarmOptimization.h:48-146); the result is `ghat`. -/
def swarm (S : Swarm K) (restarts : Nat) : Global K := swarmRuns S restarts 0 ⟨S.mn, S.f S.mn, [S.mn]⟩

end Verif.Opt
