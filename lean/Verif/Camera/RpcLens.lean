import Mathlib.Analysis.Real.Sqrt
import Mathlib.Algebra.Order.Round
import Verif.Opt.Newton

/-
Model of the RPC lens distortion of src/vw/Camera/LensDistortion.cc and LensDistortion.h.  Numbers are an ordered field
(exact arithmetic).  `none` stands for an exception, an infinite coordinate or NaN.
-/

namespace Verif.Camera.Rpc

open Verif.Opt

/-- `rpc_degree(int)` (src/vw/Camera/LensDistortion.h:372-374).  The value that is rounded is more than `-1/2`, so it does
not matter that C rounds negative halves down. -/
noncomputable def rpcDegree (n : Nat) : ℤ := round (√(2 * (n : ℝ) + 5) / 2 - 1.5)

/-- `num_dist_params(int)` (src/vw/Camera/LensDistortion.h:383). -/
def numDistParams (d : ℤ) : ℤ := 2 * (d + 1) * (d + 2) - 2

/-- `validate_distortion_params` does not throw (src/vw/Camera/LensDistortion.cc:1163-1169). -/
def Valid (n : Nat) : Prop := numDistParams (rpcDegree n) = n ∧ 0 < rpcDegree n

open Classical in
noncomputable instance (n : Nat) : Decidable (Valid n) := inferInstance

variable {K : Type} [Field K] [LinearOrder K]

/-- The table of powers (src/vw/Camera/LensDistortion.cc:1066-1072): `k` entries more, the next being `v`. -/
def powers (x : K) : Nat → K → List K
  | 0, _ => []
  | k + 1, v => v :: powers x k (v * x)

/-- The inner loop (src/vw/Camera/LensDistortion.cc:1090-1095) on the value and the index of the next coefficient. -/
def inner (c px py : List K) (s : K × Nat) (deg : Nat) : K × Nat :=
  (List.range (deg + 1)).foldl
    (fun s i => (s.1 + c.getD s.2 0 * px.getD (deg - i) 0 * py.getD i 0, s.2 + 1)) s

/-- One run of the loop over the degrees (src/vw/Camera/LensDistortion.cc:1089-1096). -/
def outer (c px py : List K) (d start : Nat) (s : K × Nat) : K × Nat :=
  (List.range' start (d + 1 - start)).foldl (inner c px py) s

/-- `RpcDistortion` (src/vw/Camera/LensDistortion.cc:1058-1103). -/
noncomputable def rpcDistortion (c : List K) (P : V2 K) : Option (V2 K) :=
  let d := (rpcDegree c.length).toNat
  let px := powers P.1 (d + 1) 1
  let py := powers P.2 (d + 1) 1
  let a := outer c px py d 0 (0, 0)
  let b := outer c px py d 1 (1, a.2)
  let e := outer c px py d 0 (0, b.2)
  let f := outer c px py d 1 (1, e.2)
  if f.2 ≠ c.length then none
  else if b.1 = 0 ∨ f.1 = 0 then none
  else some (a.1 / b.1, e.1 / f.1)

/-- What the four polynomials are made of. -/
structure Polys (K : Type) where
  numX : List K
  denX : List K
  numY : List K
  denY : List K

/-- `unpack_params` (src/vw/Camera/LensDistortion.cc:1234-1246). -/
noncomputable def unpack (c : List K) : Option (Polys K) :=
  if Valid c.length then
    let nl := (c.length + 2) / 4
    let dl := nl - 1
    some ⟨(c.drop 0).take nl, (c.drop nl).take dl, (c.drop (nl + dl)).take nl, (c.drop (nl + dl + nl)).take dl⟩
  else none

/-- `pack_params` (src/vw/Camera/LensDistortion.cc:1248-1268). -/
noncomputable def pack (p : Polys K) : Option (List K) :=
  let nl := p.numX.length
  let dl := p.denX.length
  if nl ≠ dl + 1 ∨ nl ≠ p.numY.length ∨ dl ≠ p.denY.length then none
  else
    let c := p.numX ++ p.denX ++ p.numY ++ p.denY
    if Valid c.length then some c else none

/-- `init_as_identity` (src/vw/Camera/LensDistortion.cc:1173-1188), of a vector of `n` numbers. -/
noncomputable def initIdentity (K : Type) [Field K] [LinearOrder K] (n : Nat) : Option (List K) :=
  if Valid n then
    (unpack (List.replicate n (0 : K))).bind fun p => pack { p with numX := p.numX.set 1 1, numY := p.numY.set 2 1 }
  else none

/-- `append_zeros_to_vector` (src/vw/Camera/LensDistortion.cc:1193-1205). -/
def appendZeros (v : List K) (n : Nat) : List K := v ++ List.replicate n 0

/-- `increment_degree` (src/vw/Camera/LensDistortion.cc:1211-1232). -/
noncomputable def increment (c : List K) : Option (List K) :=
  if Valid c.length then
    (unpack c).bind fun p =>
      let n := (rpcDegree c.length + 2).toNat
      pack ⟨appendZeros p.numX n, appendZeros p.denX n, appendZeros p.numY n, appendZeros p.denY n⟩
  else none

/-- An `RPCLensDistortion` (src/vw/Camera/LensDistortion.h:364-367). -/
structure Lens (K : Type) where
  degree : ℤ
  params : List K

/-- `set_distortion_parameters` and the constructor (src/vw/Camera/LensDistortion.cc:1024-1027, 1034-1038). -/
noncomputable def ofParams (c : List K) : Option (Lens K) :=
  if Valid c.length then some ⟨rpcDegree c.length, c⟩ else none

/-- `reset` (src/vw/Camera/LensDistortion.cc:1041-1049). -/
noncomputable def reset (K : Type) [Field K] [LinearOrder K] (d : ℤ) : Option (Lens K) :=
  if d ≤ 0 then none else (initIdentity K (numDistParams d).toNat).map fun c => ⟨d, c⟩

/-- The part of a pinhole camera that the lens sees: focal lengths and the optical centre. -/
structure Cam (K : Type) where
  focal : V2 K
  offset : V2 K

/-- `distorted_coordinates` (src/vw/Camera/LensDistortion.cc:1109-1128); `tiny` is `1e-300`. -/
noncomputable def distorted (tiny : K) (L : Lens K) (cam : Cam K) (p : V2 K) : Option (V2 K) :=
  if cam.focal.1 < tiny ∨ cam.focal.2 < tiny then none
  else
    let p0 : V2 K := ((p.1 - cam.offset.1) / cam.focal.1, (p.2 - cam.offset.2) / cam.focal.2)
    (rpcDistortion L.params p0).map fun q => (q.1 * cam.focal.1 + cam.offset.1, q.2 * cam.focal.2 + cam.offset.2)

/-- `undistorted_coordinates` (src/vw/Camera/LensDistortion.cc:1131-1155). -/
noncomputable def undistorted (tiny big : K) (norm : V2 K → K) (L : Lens K) (cam : Cam K) (p : V2 K) : Option (V2 K) :=
  if cam.focal.1 < tiny ∨ cam.focal.2 < tiny then none
  else
    let p0 : V2 K := ((p.1 - cam.offset.1) / cam.focal.1, (p.2 - cam.offset.2) / cam.focal.2)
    let C : NewtonCtx K := ⟨rpcDistortion L.params, numJac (rpcDistortion L.params), norm, big⟩
    let U := (newtonSolve C p0 p0 (1 / 1000000) (1 / 1000000000)).1
    some (U.1 * cam.focal.1 + cam.offset.1, U.2 * cam.focal.2 + cam.offset.2)

/-- A line `name = a b c` of a camera file.  The numbers are taken to be written and read without loss; `degree` lines
carry an integer. -/
inductive Line (K : Type)
  | degree (name : String) (d : ℤ)
  | nums (name : String) (v : List K)

/-- `write` (src/vw/Camera/LensDistortion.cc:1288-1304). -/
noncomputable def write (L : Lens K) : Option (List (Line K)) :=
  (unpack L.params).map fun p =>
    [.degree "rpc_degree" L.degree, .nums "distortion_num_x" p.numX, .nums "distortion_den_x" (1 :: p.denX),
      .nums "distortion_num_y" p.numY, .nums "distortion_den_y" (1 :: p.denY)]

/-- `read_param_vec` with the number of values (src/vw/Camera/LensDistortion.cc:128-137). -/
def readVec (name : String) (len : ℤ) : List (Line K) → Option (List K × List (Line K))
  | .nums n v :: rest => if n = name ∧ (v.length : ℤ) = len then some (v, rest) else none
  | _ => none

/-- `remove_1` (src/vw/Camera/LensDistortion.cc:1279-1285). -/
def remove1 (v : List K) : Option (List K) := if v.length ≤ 0 then none else some (v.drop 1)

/-- `read` (src/vw/Camera/LensDistortion.cc:1306-1325). -/
noncomputable def read (lines : List (Line K)) : Option (Lens K) :=
  match lines with
  | .degree n d :: rest =>
    if n = "rpc_degree" then
      let quarter := (numDistParams d + 2) / 4
      (readVec "distortion_num_x" quarter rest).bind fun nx =>
      (readVec "distortion_den_x" quarter nx.2).bind fun dx =>
      (readVec "distortion_num_y" quarter dx.2).bind fun ny =>
      (readVec "distortion_den_y" quarter ny.2).bind fun dy =>
      (remove1 dx.1).bind fun dx' =>
      (remove1 dy.1).bind fun dy' =>
      (pack ⟨nx.1, dx', ny.1, dy'⟩).map fun c => ⟨d, c⟩
    else none
  | _ => none

end Verif.Camera.Rpc
