import Mathlib.Data.Prod.Lex
import Mathlib.Data.List.Sort
import Verif.BA.AMap

/-
Model of the construction of a control network from match files:
src/vw/BundleAdjustment/ControlNetworkLoader.cc, src/vw/InterestPoint/InterestPointUtils.h, src/vw/Math/RandomSet.cc.

`X` stands for the triplet (x, y, scale) of an interest point, with the order of `std::tuple`; an image is its index.
The value `none` stands for an exception or an access out of range.  Not modelled: the reading of the files
(modelled in Verif.IP.MatchIO), triangulation, ground control points.
-/

namespace Verif.BA

variable {X : Type} [LinearOrder X]

/-- A pair of image indices with the order of `std::pair`. -/
abbrev Pair := Nat ×ₗ Nat

/-- `pick_random_indices_in_range` (src/vw/Math/RandomSet.cc:62-76) followed by `pick_random_subset` (:32-59);
`shuffled n` is what `std::shuffle` with the default generator makes of 0, …, n - 1. -/
def pickIndices (shuffled : Nat → List Nat) (inputLen outputLen : Nat) : List Nat :=
  if inputLen ≤ outputLen then shuffled inputLen else (shuffled inputLen).take outputLen

/-- `pick_pair_subset` (src/vw/InterestPoint/InterestPointUtils.h:166-190) with `std::sort` as insertion sort; a pair
of vectors of equal length is a list of pairs. -/
def thin (shuffled : Nat → List Nat) (maxMatches : Int) (ms : List (X × X)) : List (X × X) :=
  if 0 ≤ maxMatches ∧ maxMatches < ms.length then
    ((pickIndices shuffled ms.length maxMatches.toNat).insertionSort (· ≤ ·)).filterMap (fun i => ms[i]?)
  else ms

/-- `keypoint_map` (a vector of maps; by image) and `match_map`. -/
structure Load (X : Type) where
  keys : Nat → AMap X Nat
  found : AMap Pair (List (X × X))

/-- `keypoint_map[i][x] = 0`. -/
def addKey (kp : Nat → AMap X Nat) (i : Nat) (x : X) : Nat → AMap X Nat :=
  fun j => if j = i then (kp j).set x 0 else kp j

/-- One pass of the loop over the match files (src/vw/BundleAdjustment/ControlNetworkLoader.cc:457-498); `safe` is
`safe_measurement` (:52-54) on the triplet. -/
def loadOne (minMatches : Nat) (maxMatches : Int) (shuffled : Nat → List Nat) (safe : X → X) (st : Load X)
    (file : Pair × List (X × X)) : Load X :=
  if file.2.length < minMatches then st
  else
    let ms := thin shuffled maxMatches (file.2.map (fun m => (safe m.1, safe m.2)))
    let i := (ofLex file.1).1
    let j := (ofLex file.1).2
    ⟨ms.foldl (fun kp m => addKey (addKey kp i m.1) j m.2) st.keys, st.found.set file.1 ms⟩

/-- The loop over the match files (src/vw/BundleAdjustment/ControlNetworkLoader.cc:457-498). -/
def load (minMatches : Nat) (maxMatches : Int) (shuffled : Nat → List Nat) (safe : X → X)
    (files : AMap Pair (List (X × X))) : Load X :=
  files.foldl (loadOne minMatches maxMatches shuffled safe) ⟨fun _ => [], []⟩

/-- The numbering of the interest points of an image (src/vw/BundleAdjustment/ControlNetworkLoader.cc:510-522):
`keypoint_map[cid]` afterwards.  `keypoint_vec[cid]` is the list of the keys. -/
def number (kp : AMap X Nat) : AMap X Nat := kp.keys.zipIdx

/-- The loop over one pair of images of `matchesToMvg` (src/vw/BundleAdjustment/ControlNetworkLoader.cc:256-304). -/
def toMvgOne (kp : Nat → AMap X Nat) (out : AMap Pair (List (Nat × Nat))) (e : Pair × List (X × X)) :
    Option (AMap Pair (List (Nat × Nat))) :=
  let l := (ofLex e.1).1
  let r := (ofLex e.1).2
  if l = r then none
  else do
    let ids ← e.2.mapM (fun m => do
      let a ← (kp l).find m.1
      let b ← (kp r).find m.2
      some (if r < l then (b, a) else (a, b)))
    let key : Pair := if r < l then toLex (r, l) else e.1
    some (out.set key ((out.find key).getD [] ++ ids))

/-- `matchesToMvg` (src/vw/BundleAdjustment/ControlNetworkLoader.cc:247-306). -/
def toMvg (kp : Nat → AMap X Nat) (found : AMap Pair (List (X × X))) : Option (AMap Pair (List (Nat × Nat))) :=
  found.foldlM (toMvgOne kp) []

/-- Lookup in a map of maps without creating entries. -/
def find2 (m : AMap Nat (AMap Nat Nat)) (a b : Nat) : Option Nat := (m.find a).bind (fun n => n.find b)

/-- `m[a][b] = v`. -/
def set2 (m : AMap Nat (AMap Nat Nat)) (a b v : Nat) : AMap Nat (AMap Nat Nat) :=
  m.set a (((m.find a).getD []).set b v)

/-- `pid_cid_fid` and `cid_fid_pid` of `buildTracks`. -/
structure Tracks where
  pcf : AMap Nat (AMap Nat Nat)
  cfp : AMap Nat (AMap Nat Nat)

/-- One match in `buildTracks` (src/vw/BundleAdjustment/ControlNetworkLoader.cc:330-384). -/
def trackOne (lc rc : Nat) (st : Tracks) (m : Nat × Nat) : Tracks :=
  match find2 st.cfp lc m.1, find2 st.cfp rc m.2 with
  | some _, some _ => st
  | some p, none => ⟨set2 st.pcf p rc m.2, set2 st.cfp rc m.2 p⟩
  | none, some p => ⟨set2 st.pcf p lc m.1, set2 st.cfp lc m.1 p⟩
  | none, none =>
    let p := st.pcf.length
    ⟨set2 (set2 st.pcf p lc m.1) p rc m.2, set2 (set2 st.cfp lc m.1 p) rc m.2 p⟩

/-- `buildTracks` (src/vw/BundleAdjustment/ControlNetworkLoader.cc:314-388). -/
def buildTracks (mvg : AMap Pair (List (Nat × Nat))) : Tracks :=
  mvg.foldl (fun st e => e.2.foldl (trackOne (ofLex e.1).1 (ofLex e.1).2) st) ⟨[], []⟩

/-- The measures of a control point: image and interest point (src/vw/BundleAdjustment/ControlNetworkLoader.cc:416-427);
`.at` throws if there is no such index. -/
def toPoint (vec : Nat → List X) (t : AMap Nat Nat) : Option (List (Nat × X)) :=
  t.mapM (fun e => do
    let x ← (vec e.1)[e.2]?
    some (e.1, x))

/-- `matchMapToCnet` (src/vw/BundleAdjustment/ControlNetworkLoader.cc:391-433): the tie points of the network. -/
def toCnet (vec : Nat → List X) (mvg : AMap Pair (List (Nat × Nat))) : Option (List (List (Nat × X))) := do
  let pts ← (buildTracks mvg).pcf.mapM (fun t => toPoint vec t.2)
  some (pts.filter (fun p => decide (0 < p.length)))

/-- `build_control_network` (src/vw/BundleAdjustment/ControlNetworkLoader.cc:435-550) without triangulation: the tie
points; the function returns false if there is none. -/
def buildNetwork (minMatches : Nat) (maxMatches : Int) (shuffled : Nat → List Nat) (safe : X → X)
    (files : AMap Pair (List (X × X))) : Option (List (List (Nat × X))) := do
  let st := load minMatches maxMatches shuffled safe files
  let mvg ← toMvg (fun i => number (st.keys i)) st.found
  toCnet (fun i => (st.keys i).keys) mvg

end Verif.BA
