import Verif.Math.Functions
import Mathlib.Analysis.SpecialFunctions.Trigonometric.Basic

/-! Model of the matching of interest points: `src/vw/InterestPoint/Matcher.h` and `Matcher.cc` (metrics, constraints, the matcher on
a FLANN tree, the simple matcher, `remove_duplicates`), `InterestPoint.h` and `.cc` (`InterestPointLessThan`, `crop`),
`InterestPointUtils.h` (`remove_ip_near_nodata`, `pick_pair_subset`) and `src/vw/Math/RandomSet.cc`.

Numbers are exact (ℚ in place of float and double; no NaN). The tree of FLANN is any function: what it returns for a point is a parameter.
Progress reports and the request to abort, messages and timers are left out. -/

namespace VW.IPMatch

/-- `InterestPoint` (InterestPoint.h:45-96). -/
structure Point where
  x : ℚ
  y : ℚ
  scale : ℚ
  ix : ℤ
  iy : ℤ
  orientation : ℚ
  interest : ℚ
  polarity : Bool
  octave : ℕ
  scaleLvl : ℕ
  descriptor : List ℚ
deriving DecidableEq

/-! ### Metrics -/

/-- The loop of `L2NormMetric` (Matcher.cc:38-43), with the sum so far. The descriptor of the second point must not be shorter (the
indices are not checked): here the loop ends with the shorter one. -/
def l2Loop (maxdist : ℚ) : List ℚ → List ℚ → ℚ → ℚ
  | a :: as, b :: bs, dist =>
    if dist + (a - b) * (a - b) > maxdist then dist + (a - b) * (a - b)
    else l2Loop maxdist as bs (dist + (a - b) * (a - b))
  | _, _, dist => dist

/-- `L2NormMetric::operator()` (Matcher.cc:35-44) on the descriptors. -/
def l2 (maxdist : ℚ) (d1 d2 : List ℚ) : ℚ := l2Loop maxdist d1 d2 0

/-- `*reinterpret_cast<uint64*>(&packed[i])` and the same with `uint32` (Matcher.cc:72-73, 84-85): the number that the bytes make up,
lowest byte first (little endian machine). -/
def word : List ℕ → ℕ
  | [] => 0
  | b :: bs => b + 256 * word bs

/-- `hamming_distance` for `uint32` and `uint64` (Functions.h:252-260): the builtin counts the bits of the exclusive or. -/
def hammingWide (a b : ℕ) : ℕ := VW.Functions.popcount (a ^^^ b)

/-- One of the loops over groups of `k` bytes (Matcher.cc:70-80 with `k = 8`, 82-92 with `k = 4`), `n` groups from the byte at `i` on.
The second component: true if the function returned in the loop. -/
def groupLoop (k : ℕ) (maxdist : ℚ) (p1 p2 : List ℕ) : ℕ → ℕ → ℚ → ℚ × Bool
  | 0, _, dist => (dist, false)
  | n + 1, i, dist =>
    if dist + hammingWide (word ((p1.drop i).take k)) (word ((p2.drop i).take k)) > maxdist then
      (dist + hammingWide (word ((p1.drop i).take k)) (word ((p2.drop i).take k)), true)
    else groupLoop k maxdist p1 p2 n (i + k) (dist + hammingWide (word ((p1.drop i).take k)) (word ((p2.drop i).take k)))

/-- The loop over the remaining bytes (Matcher.cc:94-100), `n` of them from the byte at `i` on. -/
def byteLoop (p1 p2 : List ℕ) : ℕ → ℕ → ℚ → ℚ
  | 0, _, dist => dist
  | n + 1, i, dist => byteLoop p1 p2 n (i + 1) (dist + VW.Functions.hamming 8 (p1.getD i 0) (p2.getD i 0))

/-- `HammingMetric::operator()` (Matcher.cc:47-102), on the descriptors converted to bytes (62-67). -/
def hammingMetric (maxdist : ℚ) (p1 p2 : List ℕ) : ℚ :=
  let num64 := p1.length / 8
  let num32 := (p1.length - num64 * 8) / 4
  let r1 := groupLoop 8 maxdist p1 p2 num64 0 0
  if r1.2 then r1.1
  else
    let r2 := groupLoop 4 maxdist p1 p2 num32 (num64 * 8) r1.1
    if r2.2 then r2.1
    else byteLoop p1 p2 (p1.length - (num64 * 8 + num32 * 4)) (num64 * 8 + num32 * 4) r2.1

/-! ### Constraints -/

/-- The difference of orientations in `ScaleOrientationConstraint` (Matcher.cc:122-125). -/
noncomputable def oriDiff (base test : ℝ) : ℝ :=
  if test - base < -Real.pi then test - base + Real.pi * 2
  else if test - base > Real.pi then test - base - Real.pi * 2
  else test - base

/-- `ScaleOrientationConstraint::operator()` (Matcher.cc:119-134), of scale and orientation of both points. -/
noncomputable def scaleOri (srmin srmax odmin odmax : ℝ) (bscale bori tscale tori : ℝ) : Prop :=
  tscale / bscale ≥ srmin ∧ tscale / bscale ≤ srmax ∧ oriDiff bori tori ≥ odmin ∧ oriDiff bori tori ≤ odmax

/-- `PositionConstraint::operator()` (Matcher.cc:136-147). -/
def position (minx maxx miny maxy : ℚ) (base test : Point) : Bool :=
  decide (test.x - base.x ≥ minx ∧ test.x - base.x ≤ maxx ∧ test.y - base.y ≥ miny ∧ test.y - base.y ≤ maxy)

/-! ### The matcher with a FLANN tree -/

/-- The members of `InterestPointMatcher` (Matcher.h:156-161). -/
structure Matcher where
  constraint : Point → Point → Bool
  metric : Point → Point → ℚ
  threshold : ℚ
  bidirectional : Bool

/-- `check_constraint` (Matcher.h:270-285; with `NullConstraint`, 170-174, the constraint is constantly true). -/
def Matcher.check (m : Matcher) (p1 p2 : Point) : Bool :=
  if m.bidirectional then m.constraint p2 p1 && m.constraint p1 p2 else m.constraint p1 p2

/-- The loop of `operator()` that fills `index_list` (Matcher.h:333-383). `knn ip` is what the search finds: `none` if less than two,
else the two indices. An entry `none` is `size_t(-1)`. The result is `none` if an index leads past the end of `ip2`. -/
def Matcher.indexLoop (m : Matcher) (knn : Point → Option (ℕ × ℕ)) (ip2 : List Point) :
    List Point → List (Option ℕ) → Option (List (Option ℕ))
  | [], out => some out
  | p :: ps, out =>
    match knn p with
    | none => m.indexLoop knn ip2 ps (out ++ [none])
    | some (i, j) =>
      match ip2[i]?, ip2[j]? with
      | some r0, some r1 =>
        if m.check r0 p then
          if m.metric r0 p < m.threshold * m.metric r1 p then m.indexLoop knn ip2 ps (out ++ [some i])
          else m.indexLoop knn ip2 ps (out ++ [none])
        else m.indexLoop knn ip2 ps out
      | _, _ => none

/-- `operator()` with an index list (Matcher.h:291-386). -/
def Matcher.indices (m : Matcher) (knn : Point → Option (ℕ × ℕ)) (ip1 ip2 : List Point) : Option (List (Option ℕ)) :=
  if ip1.length = 0 ∨ ip2.length = 0 then some [] else m.indexLoop knn ip2 ip1 []

/-- The loop that makes pairs (Matcher.h:410-425), with the rest of the index list. The second component is false if the list iterator
was dereferenced at its end: undefined behaviour, the pairs are those pushed before. -/
def pairLoop (ip2 : List Point) : List Point → List (Option ℕ) → List (Point × Point) → List (Point × Point) × Bool
  | [], _, out => (out, true)
  | _ :: _, [], out => (out, false)
  | p :: ps, k :: ks, out =>
    match k.bind (fun k => ip2[k]?) with
    | some q => pairLoop ip2 ps ks (out ++ [(p, q)])
    | none => pairLoop ip2 ps ks out

/-- `operator()` with lists of matched points (Matcher.h:393-427). -/
def Matcher.pairs (m : Matcher) (knn : Point → Option (ℕ × ℕ)) (ip1 ip2 : List Point) : Option (List (Point × Point) × Bool) :=
  (m.indices knn ip1 ip2).map (fun l => pairLoop ip2 ip1 l [])

/-! ### The simple matcher -/

/-- The loop over the second list (Matcher.h:471-487), from index `j` on: best index, first and second pick. -/
def simpleLoop (metric : Point → Point → ℚ) (p : Point) : List Point → ℕ → Option ℕ × ℚ × ℚ → Option ℕ × ℚ × ℚ
  | [], _, st => st
  | q :: qs, j, (idx, first, second) =>
    if p.polarity ≠ q.polarity then simpleLoop metric p qs (j + 1) (idx, first, second)
    else if metric p q < first then simpleLoop metric p qs (j + 1) (some j, metric p q, first)
    else if metric p q < second then simpleLoop metric p qs (j + 1) (idx, first, metric p q)
    else simpleLoop metric p qs (j + 1) (idx, first, second)

/-- `match_index[i]` (Matcher.h:468-493). -/
def simpleIndex (metric : Point → Point → ℚ) (threshold : ℚ) (ip2 : List Point) (p : Point) : Option ℕ :=
  let r := simpleLoop metric p ip2 0 (none, 10 ^ 100, 10 ^ 100)
  if r.2.1 > threshold * r.2.2 then none else r.1

/-- `InterestPointMatcherSimple::operator()` (Matcher.h:437-508), as a list of pairs (`matched_ip1` and `matched_ip2` are filled
together). The constraint of the class is not used. -/
def simpleMatch (metric : Point → Point → ℚ) (threshold : ℚ) (ip1 ip2 : List Point) : List (Point × Point) :=
  if ip1.length = 0 ∨ ip2.length = 0 then []
  else ip1.filterMap (fun p => (simpleIndex metric threshold ip2 p).bind (fun k => (ip2[k]?).map (fun q => (p, q))))

/-! ### Duplicates -/

/-- The first loop of `remove_duplicates` (Matcher.cc:166-185) over the pairs in reverse order: sets of positions, pairs kept. -/
def dupLoop : List (Point × Point) → List (ℚ × ℚ) → List (ℚ × ℚ) → List (Point × Point) → List (Point × Point)
  | [], _, _, out => out
  | (p, q) :: rest, s1, s2, out =>
    if (p.x, p.y) ∈ s1 ∨ (q.x, q.y) ∈ s2 then dupLoop rest s1 s2 out
    else dupLoop rest ((p.x, p.y) :: s1) ((q.x, q.y) :: s2) (out ++ [(p, q)])

/-- `remove_duplicates` (Matcher.cc:152-195); `none` if it throws. -/
def removeDuplicates (ip1 ip2 : List Point) : Option (List Point × List Point) :=
  if ip1.length = ip2.length then
    let f := dupLoop (ip1.zip ip2).reverse [] [] []
    some (f.reverse.map Prod.fst, f.reverse.map Prod.snd)
  else none

/-! ### Order and selection -/

/-- `InterestPointLessThan` (InterestPoint.cc:57-92). -/
def lessThan (p q : Point) : Bool :=
  if p.x < q.x then true else if p.x > q.x then false
  else if p.y < q.y then true else if p.y > q.y then false
  else if p.scale < q.scale then true else if p.scale > q.scale then false
  else if p.orientation < q.orientation then true else if p.orientation > q.orientation then false
  else if p.interest < q.interest then true else if p.interest > q.interest then false
  else if p.polarity < q.polarity then true else if p.polarity > q.polarity then false
  else if p.octave < q.octave then true else if p.octave > q.octave then false
  else if p.scaleLvl < q.scaleLvl then true else false

/-- `std::sort` with `InterestPointLessThan` (Matcher.h:250-260): any function whose result is a permutation of the list in which no
element is less than an earlier one. -/
structure IsSort (sort : List Point → List Point) : Prop where
  perm : ∀ l, (sort l).Perm l
  sorted : ∀ l, (sort l).Pairwise (fun a b => lessThan b a = false)

/-- `crop` of a list of points (InterestPoint.h:134-142) with a box of float or double; `BBox::contains` (BBox.h): at least the
minimum, below the maximum. -/
def cropReal (minx miny maxx maxy : ℚ) (l : List Point) : List Point :=
  l.filter (fun p => decide (minx ≤ p.x ∧ miny ≤ p.y ∧ p.x < maxx ∧ p.y < maxy))

/-- The conversion of a number to `int`: towards zero. -/
def trunc (q : ℚ) : ℤ := if 0 ≤ q then ⌊q⌋ else ⌈q⌉

/-- `crop` with a `BBox2i`: the coordinates of the point are converted to `int`. -/
def cropInt (minx miny maxx maxy : ℤ) (l : List Point) : List Point :=
  l.filter (fun p => decide (minx ≤ trunc p.x ∧ miny ≤ trunc p.y ∧ trunc p.x < maxx ∧ trunc p.y < maxy))

/-- An image as the function of its pixels, with its size. -/
structure Img where
  w : ℤ
  h : ℤ
  px : ℤ → ℤ → ℚ

/-- Whether `remove_ip_near_nodata` erases the point (InterestPointUtils.h:62, 69-77): outside of the image box made smaller, or a pixel
of the window equals `nodata`. -/
def nearNodata (img : Img) (nodata : ℚ) (radius : ℕ) (p : Point) : Bool :=
  if radius ≤ p.ix ∧ radius ≤ p.iy ∧ p.ix < img.w - radius ∧ p.iy < img.h - radius then
    (List.range (2 * radius + 1)).any (fun j => (List.range (2 * radius + 1)).any (fun i =>
      decide (img.px (p.ix - radius + i) (p.iy - radius + j) = nodata)))
  else true

/-- The loop of `remove_ip_near_nodata` (InterestPointUtils.h:59-78): points before the iterator and from it on. After an `erase` the
iterator is decremented, which is undefined at the beginning of the list: `none`. -/
def nodataLoop (bad : Point → Bool) : List Point → List Point → Option (List Point)
  | before, [] => some before
  | before, p :: rest =>
    if bad p then
      if before = [] then none else nodataLoop bad before rest
    else nodataLoop bad (before ++ [p]) rest

/-- `remove_ip_near_nodata` (InterestPointUtils.h:44-82). -/
def removeNearNodata (img : Img) (nodata : ℚ) (l : List Point) (radius : ℕ) : Option (List Point) :=
  nodataLoop (nearNodata img nodata radius) [] l

/-- `pick_random_subset` (RandomSet.cc:32-59), with the shuffled input; `none` if it throws. -/
def pickSubset (shuffle : List ℕ → List ℕ) (outLen : ℤ) (input : List ℕ) : Option (List ℕ) :=
  if outLen < 0 then none
  else if outLen ≥ (shuffle input).length then some (shuffle input)
  else some ((shuffle input).take outLen.toNat)

/-- `pick_random_indices_in_range` (RandomSet.cc:62-76). -/
def pickIndices (shuffle : List ℕ → List ℕ) (inLen outLen : ℤ) : Option (List ℕ) :=
  if inLen < 0 ∨ outLen < 0 then none else pickSubset shuffle outLen (List.range inLen.toNat)

/-- `pick_pair_subset` (InterestPointUtils.h:166-190), with the sorting of the indices; `none` if an index is out of range or the
indices are not as many as asked for. -/
def pickPairs {α : Type} (shuffle sort : List ℕ → List ℕ) (ip1 ip2 : List α) (max : ℤ) : Option (List α × List α) :=
  if max ≥ 0 ∧ (ip1.length : ℤ) > max then
    match pickIndices shuffle ip1.length max with
    | none => none
    | some s =>
      if s.length = max.toNat then
        match (sort s).mapM (fun k => ip1[k]?), (sort s).mapM (fun k => ip2[k]?) with
        | some a, some b => some (a, b)
        | _, _ => none
      else none
  else some (ip1, ip2)

end VW.IPMatch
