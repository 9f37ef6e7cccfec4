/-! Model of the binary interest point and match files of `src/vw/InterestPoint/MatcherIO.cc`, byte by byte.

A value of `k` bytes is the number its `k` bytes make up, lowest byte first (little endian machine); so a `float` is its bit
pattern. A `bool` is one byte, 0 or 1. Opening a file for writing always succeeds and every byte gets to the disk, unless the
process stops: then a prefix of the bytes is there. Not modelled: failure of an allocation when a damaged file asks for a huge
descriptor, the Lowe and text formats. -/

namespace VW.MatchIO

/-- The `k` bytes of a number. -/
def bytes : Nat → Nat → List Nat
  | 0, _ => []
  | k + 1, n => n % 256 :: bytes k (n / 256)

/-- The number that bytes make up. -/
def value : List Nat → Nat
  | [] => 0
  | b :: bs => b + 256 * value bs

/-- `InterestPoint` (InterestPoint.h:43-96). -/
structure Point where
  x : Nat
  y : Nat
  scale : Nat
  ix : Nat
  iy : Nat
  orientation : Nat
  interest : Nat
  polarity : Bool
  octave : Nat
  scaleLvl : Nat
  descriptor : List Nat
deriving DecidableEq, Repr

/-- `InterestPoint()` (InterestPoint.h:57-62): all zero but `scale = 1.0f`. -/
def Point.default : Point := ⟨0, 0, 0x3f800000, 0, 0, 0, 0, false, 0, 0, []⟩

/-- `write_ip_record` (MatcherIO.cc:248-263). -/
def record (p : Point) : List Nat :=
  bytes 4 p.x ++ bytes 4 p.y ++ bytes 4 p.ix ++ bytes 4 p.iy ++ bytes 4 p.orientation ++ bytes 4 p.scale ++ bytes 4 p.interest ++
    bytes 1 p.polarity.toNat ++ bytes 4 p.octave ++ bytes 4 p.scaleLvl ++ bytes 8 p.descriptor.length ++
    p.descriptor.flatMap (bytes 4)

/-- An `std::ifstream`: the bytes not yet read, and whether no read has failed. -/
structure Stream where
  rest : List Nat
  good : Bool
deriving DecidableEq, Repr

/-- `f.read((char*)&v, k)` into a variable holding `n0`: after a failure nothing happens; at the end of the file the bytes that
are left overwrite the first bytes of the variable and the stream fails. -/
def read (k n0 : Nat) (s : Stream) : Nat × Stream :=
  if s.good = false then (n0, s)
  else if k ≤ s.rest.length then (value (s.rest.take k), ⟨s.rest.drop k, true⟩)
  else (value (s.rest ++ (bytes k n0).drop s.rest.length), ⟨[], false⟩)

/-- The loop over the descriptor (MatcherIO.cc:287-289), of zeros at first. -/
def readFloats : Nat → Stream → List Nat × Stream
  | 0, s => ([], s)
  | n + 1, s =>
    let (v, s) := read 4 0 s
    let (vs, s) := readFloats n s
    (v :: vs, s)

/-- `read_ip_record` (MatcherIO.cc:265-290). -/
def readRecord (s : Stream) : Except String (Point × Stream) :=
  if s.good = false then .error "Failed to read interest point from file." else
  let d := Point.default
  let (x, s) := read 4 d.x s
  let (y, s) := read 4 d.y s
  let (ix, s) := read 4 d.ix s
  let (iy, s) := read 4 d.iy s
  let (orientation, s) := read 4 d.orientation s
  let (scale, s) := read 4 d.scale s
  let (interest, s) := read 4 d.interest s
  let (polarity, s) := read 1 d.polarity.toNat s
  let (octave, s) := read 4 d.octave s
  let (scaleLvl, s) := read 4 d.scaleLvl s
  let (size, s) := read 8 0 s
  if s.good = false then .ok (⟨x, y, scale, ix, iy, orientation, interest, polarity != 0, octave, scaleLvl, []⟩, s) else
  let (descriptor, s) := readFloats size s
  .ok (⟨x, y, scale, ix, iy, orientation, interest, polarity != 0, octave, scaleLvl, descriptor⟩, s)

/-- The loops `for i: result.push_back(read_ip_record(f))`. -/
def readRecords : Nat → Stream → Except String (List Point × Stream)
  | 0, s => .ok ([], s)
  | n + 1, s =>
    match readRecord s with
    | .error e => .error e
    | .ok (p, s) =>
      match readRecords n s with
      | .error e => .error e
      | .ok (ps, s) => .ok (p :: ps, s)

/-- `write_binary_ip_file` (MatcherIO.cc:292-303): the bytes of the file. -/
def writeIp (ps : List Point) : List Nat := bytes 8 ps.length ++ ps.flatMap record

/-- `read_binary_ip_file` and `read_binary_ip_file_list` (MatcherIO.cc:305-341); `none`: there is no such file. -/
def readIp (file : Option (List Nat)) : Except String (List Point) :=
  match file with
  | none => .error "Failed to open as VWIP file."
  | some bs =>
    let (size, s) := read 8 0 ⟨bs, true⟩
    if s.good = false then .ok [] else
    match readRecords size s with
    | .error e => .error e
    | .ok (ps, _) => .ok ps

/-- `write_binary_match_file` (MatcherIO.cc:344-366): the bytes of the file it leaves and the error it throws. The file is
opened, and so emptied, before the sizes are compared. -/
def writeMatch (ip1 ip2 : List Point) : List Nat × Option String :=
  if ip1.length ≠ ip2.length then ([], some "The vectors of matching interest points must have the same size.")
  else (bytes 8 ip1.length ++ bytes 8 ip2.length ++ ip1.flatMap record ++ ip2.flatMap record, none)

/-- `read_binary_match_file` (MatcherIO.cc:406-444). -/
def readMatch (file : Option (List Nat)) : Except String (List Point × List Point) :=
  match file with
  | none => .ok ([], [])
  | some bs =>
    let (size1, s) := read 8 0 ⟨bs, true⟩
    if s.good = false then .error "Failed to read match file" else
    let (size2, s) := read 8 0 s
    if size1 ≠ size2 then .error "The vectors of matching interest points must have the same size." else
    if s.good = false then .ok ([], []) else
    match readRecords size1 s with
    | .error e => .error e
    | .ok (ip1, s) =>
      match readRecords size2 s with
      | .error e => .error e
      | .ok (ip2, _) => .ok (ip1, ip2)

end VW.MatchIO
