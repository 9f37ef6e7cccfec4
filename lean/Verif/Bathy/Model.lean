import Verif.Camera.Cahv

/-
Model of refraction at a water surface: src/vw/Cartography/SnellLaw.cc, BathyStereoModel.{h,cc} and BathyRay.cc (the bending
of rays).  Numbers are exact; `sqrt` is the square root.  The map projections of BathyRay.cc are abstract functions.
-/

namespace Verif.Camera.Bathy


variable {K : Type} [Field K] [LinearOrder K]

/-- Four coefficients of a plane: the normal and the constant. -/
structure Plane (K : Type) where
  n : V3 K
  d : K
  deriving DecidableEq

/-- `signedDistToPlaneAux` (src/vw/Cartography/SnellLaw.cc:34-43). -/
def signedDist (pl : Plane K) (p : V3 K) : K :=
  0 + pl.n.x * p.x + pl.n.y * p.y + pl.n.z * p.z + pl.d

/-- `rayPlaneIntersect` (src/vw/Cartography/SnellLaw.cc:47-68): the ray is `c + alpha * v`. -/
def rayPlane (pl : Plane K) (c v : V3 K) : Option (V3 K) :=
  let cn := dot pl.n c
  let dn := dot pl.n v
  if 0 ≤ dn then none
  else some (c + (-(pl.d + cn) / dn) * v)

/-- `snellLaw` (src/vw/Cartography/SnellLaw.cc:71-134): the point on the plane and the direction in the water.  The
refraction index is not zero. -/
def snell (sqrt : K → K) (pl : Plane K) (r : K) (c v : V3 K) : Option (V3 K × V3 K) :=
  match rayPlane pl c v with
  | none => none
  | some p =>
    let dn := dot pl.n v
    let cosSq := 1 - (1 - dn * dn) / r / r
    let qu := cosSq - dn * dn
    let qv := -2 * dn * cosSq + 2 * dn
    let qw := cosSq - 1
    let delta := qv * qv - 4 * qu * qw
    if qu ≤ 0 ∨ delta < 0 then none
    else
      let alpha := (-qv + sqrt delta) / (2 * qu)
      if alpha < 0 then none
      else
        let o := -pl.n + alpha * v
        some (p, (1 / norm sqrt o) * o)

/-! Rays and a surface that is a plane after a map projection (BathyRay.cc). -/

/-- The projection: `bathyProjPoint`, `bathyUnprojPoint` (src/vw/Cartography/BathyData.cc:178-187), and the intersection of
a ray with the datum at the mean height (`datum_intersection` as called in src/vw/Cartography/BathyRay.cc:288-294). -/
structure Proj (K : Type) where
  proj : V3 K → V3 K
  unproj : V3 K → V3 K
  seed : V3 K → V3 K → V3 K

/-- The passes of `rayBathyPlaneIntersect` (src/vw/Cartography/BathyRay.cc:300-329), `k` of five left: the point, its
projection and the projected direction, as they are after the loop.  `tol` is the 1e-4.  Divisions by the length of a
projected step of zero do not occur for the projections of the theorems. -/
def passes (sqrt : K → K) (tol : K) (P : Proj K) (pl : Plane K) (c v : V3 K) : Nat → V3 K → V3 K × V3 K → Option (V3 K × V3 K × V3 K)
  | 0, h, q => some (h, q)
  | k + 1, h, _ =>
    let pass := 4 - k
    let prev := h - (1 / (1 + 10 * (pass : K))) * v
    let pp := P.proj h
    let st := pp - P.proj prev
    let dir := (1 / norm sqrt st) * st
    if |signedDist pl pp| < tol then some (h, pp, dir)
    else
      match rayPlane pl pp dir with
      | none => none
      | some q =>
        let e := P.unproj q
        passes sqrt tol P pl c v k (c + (dot (e - c) v) * v) (pp, dir)

/-- `rayBathyPlaneIntersect` (src/vw/Cartography/BathyRay.cc:269-332). -/
def hitPlane (sqrt : K → K) (tol : K) (P : Proj K) (pl : Plane K) (c v : V3 K) : Option (V3 K × V3 K × V3 K) :=
  passes sqrt tol P pl c v 5 (P.seed c v) (0, 0)

/-- `curvedSnellLawAgainstPlane` (src/vw/Cartography/BathyRay.cc:345-391). -/
def curvedSnell (sqrt : K → K) (tol : K) (P : Proj K) (pl : Plane K) (r : K) (c v : V3 K) : Option (V3 K × V3 K) :=
  match hitPlane sqrt tol P pl c v with
  | none => none
  | some (_, pp, dir) =>
    match snell sqrt pl r pp dir with
    | none => none
    | some (op, od) =>
      let next := op + (1 : K) * od
      let oe := P.unproj op
      let st := P.unproj next - oe
      some (oe, (1 / norm sqrt st) * st)

/-! Stereo. -/

/-- `BathyPlane` (src/vw/Cartography/BathyData.h:45-75): the coefficients, the stereographic projection as its text, and the
image of water heights, of any type `S`. -/
structure BPlane (K S : Type) where
  coef : List K
  proj : String
  surface : S

/-- The members of `BathyStereoModel` (src/vw/Cartography/BathyStereoModel.h:81-84); no value: not initialised. -/
structure St (K S : Type) where
  correct : Bool
  single : Option Bool
  index : Option K
  planes : List (BPlane K S)

/-- The constructor with a list of cameras (src/vw/Cartography/BathyStereoModel.h:46-49). -/
def St.ofList {S : Type} : St K S := ⟨false, none, none, []⟩

/-- The constructor with two cameras (src/vw/Cartography/BathyStereoModel.h:51-55). -/
def St.ofTwo {S : Type} : St K S := ⟨false, some true, none, []⟩

/-- `set_bathy` (src/vw/Cartography/BathyStereoModel.cc:37-65): the members after, and whether an error was thrown. -/
def setBathy {S : Type} (s : St K S) (r : K) (planes : List (BPlane K S)) : St K S × Bool :=
  let s : St K S := { s with correct := true, index := some r, planes := planes }
  if r ≤ 1 then (s, true)
  else
    match planes with
    | [p0, p1] =>
      if p0.coef.length ≠ 4 ∨ p1.coef.length ≠ 4 then (s, true)
      else
        let one := if p0.proj ≠ p1.proj then false else true
        let one := if p0.coef ≠ p1.coef then false else one
        ({ s with single := some one }, false)
    | _ => (s, true)

/-- `signedDistToPlane` (src/vw/Cartography/BathyData.cc:196-224) and `curvedSnellLaw` (src/vw/Cartography/BathyRay.cc:416-449):
the signed distance to a surface and the bending of a ray (centre, direction) with an index. -/
structure World (K S : Type) where
  dist : BPlane K S → V3 K → K
  bend : BPlane K S → K → V3 K → V3 K → Option (V3 K × V3 K)

/-- What the call does: a result and whether it was corrected, or an undefined access. -/
inductive Res (K : Type) where
  | out (o : Out K) (did : Bool)
  | undef
  deriving DecidableEq

/-- The two distances satisfy conditions; comparisons with NaN are false. -/
def signs {S : Type} (W : World K S) (p0 p1 : BPlane K S) (c0 c1 : K → Bool) (o : Option (V3 K × V3 K)) : Bool :=
  match o with
  | none => false
  | some (p, _) => c0 (W.dist p0 p) && c1 (W.dist p1 p)

/-- A triangulated pair as a result. -/
def toOut (o : Option (V3 K × V3 K)) : Out K :=
  match o with
  | none => .nan
  | some (p, e) => .ok p e

/-- One plane (src/vw/Cartography/BathyStereoModel.cc:140-168); `un` is the triangulation of the rays as they are. -/
def onePlane {S : Type} (W : World K S) (r : K) (p0 p1 : BPlane K S) (r0 r1 : Ray K) (un : Option (V3 K × V3 K)) : Res K :=
  if (match un with | none => false | some (p, _) => decide (0 ≤ W.dist p0 p)) then .out (toOut un) false
  else
    match W.bend p0 r r0.2 r0.1 with
    | none => .out (toOut un) false
    | some (wc0, wd0) =>
      match W.bend p1 r r1.2 r1.1 with
      | none => .out (toOut un) false
      | some (wc1, wd1) => .out (toOut (triangulatePair wd0 wc0 wd1 wc1)) true

/-- Two planes (src/vw/Cartography/BathyStereoModel.cc:170-239). -/
def twoPlanes {S : Type} (W : World K S) (r : K) (p0 p1 : BPlane K S) (r0 r1 : Ray K) (un : Option (V3 K × V3 K)) : Res K :=
  match W.bend p0 r r0.2 r0.1 with
  | none => .out (toOut un) false
  | some (wc0, wd0) =>
    match W.bend p1 r r1.2 r1.1 with
    | none => .out (toOut un) false
    | some (wc1, wd1) =>
      let t := triangulatePair r0.1 r0.2 r1.1 r1.2
      if signs W p0 p1 (fun x => decide (0 ≤ x)) (fun x => decide (0 ≤ x)) t then .out (toOut t) false
      else
        let t := triangulatePair wd0 wc0 wd1 wc1
        if signs W p0 p1 (fun x => decide (x ≤ 0)) (fun x => decide (x ≤ 0)) t then .out (toOut t) true
        else
          let t := triangulatePair r0.1 r0.2 wd1 wc1
          if signs W p0 p1 (fun x => decide (0 ≤ x)) (fun x => decide (x ≤ 0)) t then .out (toOut t) true
          else
            let t := triangulatePair wd0 wc0 r1.1 r1.2
            if signs W p0 p1 (fun x => decide (x ≤ 0)) (fun x => decide (0 ≤ x)) t then .out (toOut t) true
            else .out (.ok 0 0) false

/-- What is done with the rays (src/vw/Cartography/BathyStereoModel.cc:102-239). -/
def bathyRays {S : Type} (W : World K S) (sqrt : K → K) (dflt angleTol : K) (s : St K S) (rays : List (Ray K)) (doBathy : Bool) : Res K :=
  if rays.length < 2 then .out (.ok 0 0) false
  else if nearlyParallel dflt angleTol (rays.map (·.1)) then .out (.ok 0 0) false
  else
    let o := triangulatePoint sqrt rays
    match o with
    | .ok p e =>
      let q := if !s.correct && rays.any (fun ray => decide (dot (p - ray.2) ray.1 < 0)) then -p + (2 : K) * (rays.headD (0, 0)).2 else p
      finish W s rays doBathy (some (q, e))
    | .nan => finish W s rays doBathy none
    | o => .out o false
where
  /-- After the triangulation of the rays as they are (src/vw/Cartography/BathyStereoModel.cc:126-239). -/
  finish {S : Type} (W : World K S) (s : St K S) (rays : List (Ray K)) (doBathy : Bool) (un : Option (V3 K × V3 K)) : Res K :=
    match doBathy, rays with
    | true, [r0, r1] =>
      if !s.correct then .out .argErr false
      else
        match s.planes, s.index, s.single with
        | p0 :: p1 :: _, some r, some true => onePlane W r p0 p1 r0 r1 un
        | p0 :: p1 :: _, some r, some false => twoPlanes W r p0 p1 r0 r1 un
        | _, _, _ => .undef
    | _, _ => .out (toOut un) false

/-- `BathyStereoModel::operator()` (src/vw/Cartography/BathyStereoModel.cc:72-240). -/
def bathyStereo {S : Type} (W : World K S) (sqrt : K → K) (dflt angleTol : K) (inv : K × K) (s : St K S) (cams : List (Cam K))
    (pix : List (Option (K × K))) (doBathy : Bool) : Res K :=
  if pix.length ≠ cams.length then .out .argErr false
  else
    match pickRays inv (cams.zip pix) with
    | none => .out (.ok 0 0) false
    | some rays => bathyRays W sqrt dflt angleTol s rays doBathy

end Verif.Camera.Bathy
