import Mathlib.Tactic.Linarith
import Mathlib.Data.List.Lemmas
import Mathlib.Data.List.Sort
import Verif.Geom.DPoly.QueryProps

/-
C126: sorting polygons from the largest to the smallest.
-/

namespace Verif.Geom.Polys

open Verif.Geom.Poly

variable {K : Type} [Field K] [LinearOrder K]

omit [Field K] [LinearOrder K] in
theorem zip_coords (l : List (Pt K)) : (l.map Prod.fst).zip (l.map Prod.snd) = l := by
  induction l with
  | nil => rfl
  | cons a l ih => simp [ih]

/-- The size of a polygon, as the code computes it: width and height of the bounding box, area. -/
def sizeOf (big : K) (cc : Bool) (i : Nat) (q : Poly K) : PtIdx K :=
  ⟨((boxOf big q.verts).xur - (boxOf big q.verts).xll, (boxOf big q.verts).yur - (boxOf big q.verts).yll), |signedPolyArea q.verts cc|, i⟩

theorem boxDims_eq (big : K) (cc : Bool) (d : DPoly K) (ps : List (Poly K)) (h : Rep d ps) :
    boxDims big cc d = ps.zipIdx.map fun q => sizeOf big cc q.2 q.1 := by
  have := polyLoop_push d ps h (fun p xs ys =>
    (⟨(((bdBoxes big d).getD p ⟨0, 0, 0, 0⟩).xur - ((bdBoxes big d).getD p ⟨0, 0, 0, 0⟩).xll,
      ((bdBoxes big d).getD p ⟨0, 0, 0, 0⟩).yur - ((bdBoxes big d).getD p ⟨0, 0, 0, 0⟩).yll), |signedPolyArea (xs.zip ys) cc|, p⟩ : PtIdx K)) ps [] [] rfl
  simp only [List.length_nil, List.flatMap_nil, List.nil_append] at this
  have hl : (bdBoxes big d).length = d.numPolys := by rw [bdBoxes_eq big d ps h, List.length_map, h.numPolys]
  unfold boxDims
  simp only []
  rw [hl, take_all d ps h, this]
  apply List.map_congr_left
  rintro ⟨q, p⟩ hq
  have hq := List.mk_mem_zipIdx_iff_getElem?.mp hq
  have hb : (bdBoxes big d).getD p ⟨0, 0, 0, 0⟩ = boxOf big q.verts := by
    rw [bdBoxes_eq big d ps h, List.getD_eq_getElem?_getD, List.getElem?_map, hq]; rfl
  simp only [hb, zip_coords, sizeOf]

theorem set_all {β : Type} (F : Nat → β) (l : List β) : ∀ m, m ≤ l.length →
    forRange m (fun s l => l.set s (F s)) l = (List.range m).map F ++ l.drop m := by
  intro m
  induction m with
  | zero => intro _; simp [forRange]
  | succ m ih =>
    intro hm
    rw [forRange_succ, ih (by omega), List.set_append_right _ _ (by simp)]
    simp only [List.length_map, List.length_range, Nat.sub_self]
    rw [List.drop_eq_getElem_cons (show m < l.length by omega), List.set_cons_zero, List.range_succ]
    simp

theorem set_range (B : List (Pt K)) (F G : Nat → K) (hF : ∀ t, t < B.length → (F t, G t) = B.getD t (0, 0)) (A R : List (Pt K)) (hR : B.length ≤ R.length) :
    forRange B.length (fun t (st : List K × List K) => (st.1.set (A.length + t) (F t), st.2.set (A.length + t) (G t))) (sp (A ++ R))
      = sp (A ++ B ++ R.drop B.length) := by
  have key : ∀ m, m ≤ B.length → forRange m (fun t (st : List K × List K) => (st.1.set (A.length + t) (F t), st.2.set (A.length + t) (G t))) (sp (A ++ R))
      = sp (A ++ B.take m ++ R.drop m) := by
    intro m
    induction m with
    | zero => intro _; simp [forRange]
    | succ m ih =>
      intro hm
      rw [forRange_succ, ih (by omega)]
      have hb := hF m (by omega)
      rw [List.getD_eq_getElem?_getD, List.getElem?_eq_getElem (show m < B.length by omega)] at hb
      simp only [Option.getD_some] at hb
      have e1 : F m = B[m].1 := congrArg Prod.fst hb
      have e2 : G m = B[m].2 := congrArg Prod.snd hb
      have hlen : (A ++ B.take m).length = A.length + m := by simp; omega
      have e : ∀ (g : Pt K → K), ((A ++ B.take m ++ R.drop m).map g).set (A.length + m) (g B[m]) = (A ++ B.take (m + 1) ++ R.drop (m + 1)).map g := by
        intro g
        rw [← List.map_set, ← hlen, List.set_append_right _ _ le_rfl, Nat.sub_self, List.drop_eq_getElem_cons (show m < R.length by omega), List.set_cons_zero,
          List.take_succ_eq_append_getElem (by omega)]
        simp only [List.append_assoc, List.cons_append, List.nil_append]
      simp only [sp]
      rw [e1, e2, e, e]
  have := key B.length le_rfl
  rwa [List.take_length] at this

/-- A polygon, for places out of range. -/
def noPoly : Poly K := ⟨[], false, "", ""⟩

theorem getD_pt (d : DPoly K) (ps : List (Poly K)) (h : Rep d ps) (i : Nat) (hi : i < ps.length) (t : Nat) (ht : t < (ps.getD i noPoly).verts.length) :
    (d.xv.getD (startOf d.numVerts i + t) 0, d.yv.getD (startOf d.numVerts i + t) 0) = (ps.getD i noPoly).verts.getD t (0, 0) := by
  have hg : ps.getD i noPoly = ps[i] := by simp [List.getD_eq_getElem?_getD, hi]
  rw [hg] at ht ⊢
  obtain ⟨e1, e2⟩ := getD_vert d ps h (ps.take i) (ps.drop (i + 1)) ps[i] (split_at ps i hi) t ht
  rw [start_rep d ps h, e1, e2]

theorem sort_loop (d : DPoly K) (ps : List (Poly K)) (h : Rep d ps) (ix : Nat → Nat) : ∀ (rs as : List Nat),
    (∀ j, j < (as ++ rs).length → ix j = (as ++ rs).getD j 0) → (∀ i ∈ rs, i < ps.length) → ∀ (A R : List (Pt K)),
    R.length = (rs.map fun i => (ps.getD i noPoly).verts.length).sum →
    polyLoop (fun p s k (st : List K × List K) =>
      forRange k (fun t (st : List K × List K) =>
        (st.1.set (s + t) (d.xv.getD (startOf d.numVerts (ix p) + t) 0), st.2.set (s + t) (d.yv.getD (startOf d.numVerts (ix p) + t) 0))) st)
      as.length A.length (rs.map fun i => (ps.getD i noPoly).verts.length) (sp (A ++ R))
    = sp (A ++ rs.flatMap fun i => (ps.getD i noPoly).verts) := by
  intro rs
  induction rs with
  | nil => intro as _ _ A R hR; have : R = [] := List.length_eq_zero_iff.mp (by simpa using hR); simp [polyLoop, this]
  | cons i rs ih =>
    intro as hix hb A R hR
    have hixi : ix as.length = i := by
      rw [hix as.length (by simp)]; simp [List.getD_eq_getElem?_getD]
    rw [List.map_cons, polyLoop, hixi]
    have hR' : (ps.getD i noPoly).verts.length ≤ R.length := by rw [hR, List.map_cons, List.sum_cons]; omega
    rw [set_range (ps.getD i noPoly).verts _ _ (fun t ht => getD_pt d ps h i (hb i (by simp)) t ht) A R hR']
    have := ih (as ++ [i]) (by simpa using hix) (fun j hj => hb j (by simp [hj])) (A ++ (ps.getD i noPoly).verts) (R.drop (ps.getD i noPoly).verts.length)
      (by rw [List.length_drop, hR, List.map_cons, List.sum_cons]; omega)
    rw [List.length_append, List.length_append, List.length_cons, List.length_nil] at this
    rw [this]
    simp

/-- What `std::sort` does. -/
def Sorts (sort : List (PtIdx K) → List (PtIdx K)) : Prop :=
  ∀ l, (sort l).Perm l ∧ (sort l).Pairwise fun a b => greaterThanPtIndex b a = false

/-- Polygon `b` is larger than `a`: its box is wider, or as wide and higher, or as wide and as high and its area is larger. -/
def Larger (big : K) (cc : Bool) (b a : Poly K) : Prop :=
  let wa := (boxOf big a.verts).xur - (boxOf big a.verts).xll
  let wb := (boxOf big b.verts).xur - (boxOf big b.verts).xll
  let ha := (boxOf big a.verts).yur - (boxOf big a.verts).yll
  let hb := (boxOf big b.verts).yur - (boxOf big b.verts).yll
  wa < wb ∨ (wa = wb ∧ (ha < hb ∨ (ha = hb ∧ |signedPolyArea a.verts cc| < |signedPolyArea b.verts cc|)))

theorem gt_iff (big : K) (cc : Bool) (a b : Poly K) (i j : Nat) :
    greaterThanPtIndex (sizeOf big cc i b) (sizeOf big cc j a) = true ↔ Larger big cc b a := by
  unfold greaterThanPtIndex greaterThan Larger sizeOf
  simp only [Bool.or_eq_true, decide_eq_true_eq, Bool.and_eq_true, gt_iff_lt]
  generalize (boxOf big a.verts).xur - (boxOf big a.verts).xll = wa
  generalize (boxOf big b.verts).xur - (boxOf big b.verts).xll = wb
  generalize (boxOf big a.verts).yur - (boxOf big a.verts).yll = ha
  generalize (boxOf big b.verts).yur - (boxOf big b.verts).yll = hb
  by_cases c1 : wa < wb ∨ (wb = wa ∧ ha < hb)
  · rw [if_pos c1]
    simp only [true_iff]
    rcases c1 with c | ⟨c, c'⟩
    · exact Or.inl c
    · exact Or.inr ⟨c.symm, Or.inl c'⟩
  · rw [if_neg c1]
    push_neg at c1
    by_cases c2 : wb < wa ∨ (wa = wb ∧ hb < ha)
    · rw [if_pos c2]
      simp only [Bool.false_eq_true, false_iff]
      rintro (c | ⟨c, c' | ⟨c', _⟩⟩)
      · exact absurd c (not_lt.mpr c1.1)
      · exact absurd c' (not_lt.mpr (c1.2 c.symm))
      · rcases c2 with c2 | ⟨_, c2⟩
        · exact absurd c2 (by rw [c]; exact lt_irrefl _)
        · exact absurd c2 (by rw [c']; exact lt_irrefl _)
    · rw [if_neg c2]
      push_neg at c2
      have hw : wa = wb := le_antisymm c2.1 c1.1
      have hh : ha = hb := le_antisymm (c2.2 hw) (c1.2 hw.symm)
      simp [hw, hh]

/-- **Sorting.**  The polygons after sorting, with their attributes, are those before in another order, and no polygon is
larger than one before it. -/
theorem sort_spec (sort : List (PtIdx K) → List (PtIdx K)) (hs : Sorts sort) (big : K) (cc : Bool) (d : DPoly K) (ps : List (Poly K)) (h : Rep d ps) :
    ∃ ps', Rep (sortFromLargestToSmallest sort big cc d) ps' ∧ ps'.Perm ps ∧ (ps'.Pairwise fun a b => ¬ Larger big cc b a) ∧
      (sortFromLargestToSmallest sort big cc d).annos = d.annos := by
  obtain ⟨hperm, hpw⟩ := hs (boxDims big cc d)
  set dims := sort (boxDims big cc d) with hdims
  set ixs := dims.map (·.index) with hixs
  have hbd := boxDims_eq big cc d ps h
  have hrange : ixs.Perm (List.range ps.length) := by
    have := hperm.map (·.index)
    rw [hbd, List.map_map] at this
    refine this.trans ?_
    rw [show ((fun x : PtIdx K => x.index) ∘ fun q : Poly K × Nat => sizeOf big cc q.2 q.1) = Prod.snd from rfl]
    rw [List.zipIdx_map_snd, List.range_eq_range']
  have hlen : ixs.length = ps.length := by rw [hrange.length_eq]; simp
  have hin : ∀ i ∈ ixs, i < ps.length := fun i hi => List.mem_range.mp (hrange.mem_iff.mp hi)
  have hn : (boxDims big cc d).length = ps.length := by rw [hbd]; simp
  set ps' := ixs.map fun i => ps.getD i noPoly with hps'
  have hP : ps'.Perm ps := by
    have := hrange.map (fun i => ps.getD i noPoly)
    refine this.trans (List.Perm.of_eq ?_)
    apply List.ext_getElem?; intro j
    simp only [List.getElem?_map]
    rcases Nat.lt_or_ge j ps.length with hj | hj
    · rw [List.getElem?_range hj]; simp [List.getD_eq_getElem?_getD, hj]
    · rw [List.getElem?_eq_none (by simpa using hj), List.getElem?_eq_none hj]; rfl
  have hattr : ∀ {β : Type} (b : β) (g : Poly K → β), (List.range ps.length).map (fun s => (ps.map g).getD (ixs.getD s 0) b) = ps'.map g := by
    intro β b g
    apply List.ext_getElem?; intro j
    simp only [List.getElem?_map, hps']
    rcases Nat.lt_or_ge j ps.length with hj | hj
    · rw [List.getElem?_range hj]
      have hj' : j < ixs.length := by omega
      have hm := hin ixs[j] (List.getElem_mem hj')
      simp [List.getD_eq_getElem?_getD, hj', hm]
    · rw [List.getElem?_eq_none (by simpa using hj), List.getElem?_eq_none (by omega)]; rfl
  have hset : ∀ {β : Type} (b : β) (g : Poly K → β),
      forRange ps.length (fun s l => l.set s ((ps.map g).getD (ixs.getD s 0) b)) (ps.map g) = ps'.map g := by
    intro β b g
    rw [set_all _ _ _ (by simp), hattr]; simp
  refine ⟨ps', ?_, hP, ?_, rfl⟩
  · have hlen' : ps'.map (·.verts.length) = ixs.map fun i => (ps.getD i noPoly).verts.length := by rw [hps', List.map_map]; rfl
    have hflat : ps'.flatMap (·.verts) = ixs.flatMap fun i => (ps.getD i noPoly).verts := by rw [hps', List.flatMap_map]
    have hsum : (ps.map (·.verts.length)).sum = (ps'.map (·.verts.length)).sum := ((hP.map (·.verts.length)).sum_eq).symm
    have hloop := sort_loop d ps h (fun s => ixs.getD s 0) ixs [] (by intro j _; rfl) hin [] (ps.flatMap (·.verts)) (by rw [length_flat, hsum, hlen'])
    simp only [List.nil_append, List.length_nil] at hloop
    have hnv : forRange ps.length (fun s l => l.set s (d.numVerts.getD (ixs.getD s 0) 0)) d.numVerts = ps'.map (·.verts.length) := by
      rw [h.numVerts]; exact hset 0 (·.verts.length)
    have hv : polyLoop (fun p s k (st : List K × List K) =>
        forRange k (fun t (st : List K × List K) =>
          (st.1.set (s + t) (d.xv.getD (startOf d.numVerts (ixs.getD p 0) + t) 0), st.2.set (s + t) (d.yv.getD (startOf d.numVerts (ixs.getD p 0) + t) 0))) st)
        0 0 ((ps'.map (·.verts.length)).take ps.length) (d.xv, d.yv) = sp (ps'.flatMap (·.verts)) := by
      rw [List.take_of_length_le (by rw [List.length_map, hP.length_eq]), hflat, ← hloop, hlen', h.xv, h.yv]; rfl
    have hd : sortFromLargestToSmallest sort big cc d = { d with
        numVerts := ps'.map (·.verts.length)
        closed := ps'.map (·.closed)
        colors := ps'.map (·.color)
        layers := ps'.map (·.layer)
        xv := (sp (ps'.flatMap (·.verts))).1
        yv := (sp (ps'.flatMap (·.verts))).2 } := by
      unfold sortFromLargestToSmallest
      simp only [hn, ← hdims, ← hixs]
      rw [hnv, hv]
      rw [h.closed, h.colors, h.layers, hset false (·.closed), hset "" (·.color), hset "" (·.layer)]
    rw [hd]
    exact ⟨rfl, rfl, rfl, by rw [h.numPolys]; exact hP.length_eq.symm, by rw [h.total]; exact hsum, rfl, rfl, rfl⟩
  · rw [hps', List.pairwise_map, hixs, List.pairwise_map]
    have hmem : ∀ a ∈ dims, a = sizeOf big cc a.index (ps.getD a.index noPoly) := by
      intro a ha
      have ha := hperm.mem_iff.mp ha
      rw [hbd] at ha
      obtain ⟨⟨q, i⟩, hq, rfl⟩ := List.mem_map.mp ha
      have hq := List.mk_mem_zipIdx_iff_getElem?.mp hq
      have : ps.getD i noPoly = q := by rw [List.getD_eq_getElem?_getD, hq]; rfl
      show sizeOf big cc i q = sizeOf big cc i (ps.getD i noPoly)
      rw [this]
    refine (List.Pairwise.imp_of_mem ?_ hpw)
    intro a b ha hb hab hl
    rw [hmem a ha, hmem b hb] at hab
    rw [(gt_iff big cc _ _ _ _).mpr hl] at hab
    exact absurd hab (by simp)

variable [IsStrictOrderedRing K]

/-- `a` lies in `b` as far as boxes and areas tell: the box of `a` is in that of `b`, the area of `a` is at most that of `b`, and
the two do not have the same box and area. -/
def Inside (cc : Bool) (a b : Poly K) : Prop :=
  ∃ ba bb : Box K, IsBox ba a.verts ∧ IsBox bb b.verts ∧ bb.xll ≤ ba.xll ∧ bb.yll ≤ ba.yll ∧ ba.xur ≤ bb.xur ∧ ba.yur ≤ bb.yur
    ∧ |signedPolyArea a.verts cc| ≤ |signedPolyArea b.verts cc| ∧ ¬ (ba = bb ∧ |signedPolyArea a.verts cc| = |signedPolyArea b.verts cc|)

omit [Field K] [IsStrictOrderedRing K] in
theorem isBox_unique (b c : Box K) (l : List (Pt K)) (hb : IsBox b l) (hc : IsBox c l) : b = c := by
  obtain ⟨b1, b2, b3, b4⟩ := hb
  obtain ⟨c1, c2, c3, c4⟩ := hc
  cases b; cases c
  simp only [Box.mk.injEq]
  exact ⟨le_antisymm (b1.2 _ c1.1) (c1.2 _ b1.1), le_antisymm (b2.2 _ c2.1) (c2.2 _ b2.1),
    le_antisymm (c3.2 _ b3.1) (b3.2 _ c3.1), le_antisymm (c4.2 _ b4.1) (b4.2 _ c4.1)⟩

theorem inside_larger (big : K) (cc : Bool) (a b : Poly K) (h : Inside cc a b) : Larger big cc b a := by
  obtain ⟨ba, bb, h1, h2, i1, i2, i3, i4, ia, hne⟩ := h
  have na : a.verts ≠ [] := by intro e; rw [e] at h1; exact absurd h1.1.1 (by simp)
  have nb : b.verts ≠ [] := by intro e; rw [e] at h2; exact absurd h2.1.1 (by simp)
  rw [isBox_unique _ _ _ h1 (boxOf_spec big _ na)] at *
  rw [isBox_unique _ _ _ h2 (boxOf_spec big _ nb)] at *
  unfold Larger
  simp only []
  generalize boxOf big a.verts = x at *
  generalize boxOf big b.verts = y at *
  by_cases c1 : x.xur - x.xll < y.xur - y.xll
  · exact Or.inl c1
  · by_cases c2 : x.yur - x.yll < y.yur - y.yll
    · exact Or.inr ⟨by linarith, Or.inl c2⟩
    · refine Or.inr ⟨by linarith, Or.inr ⟨by linarith, lt_of_le_of_ne ia ?_⟩⟩
      intro he
      apply hne
      refine ⟨?_, he⟩
      cases x; cases y
      simp only [Box.mk.injEq] at *
      exact ⟨by linarith, by linarith, by linarith, by linarith⟩

/-- **After sorting no polygon is inside of a later one.** -/
theorem sort_inside (sort : List (PtIdx K) → List (PtIdx K)) (hs : Sorts sort) (big : K) (cc : Bool) (d : DPoly K) (ps : List (Poly K)) (h : Rep d ps) :
    ∃ ps', Rep (sortFromLargestToSmallest sort big cc d) ps' ∧ ps'.Perm ps ∧ ps'.Pairwise fun a b => ¬ Inside cc a b := by
  obtain ⟨ps', h1, h2, h3, _⟩ := sort_spec sort hs big cc d ps h
  exact ⟨ps', h1, h2, h3.imp fun hab hi => hab (inside_larger big cc _ _ hi)⟩

/-- The corners of a box, counterclockwise. -/
def corners (b : Box K) : List (Pt K) := [(b.xll, b.yll), (b.xur, b.yll), (b.xur, b.yur), (b.xll, b.yur)]

theorem corners_box (b : Box K) (hx : b.xll ≤ b.xur) (hy : b.yll ≤ b.yur) : IsBox b (corners b) := by
  refine ⟨⟨by simp [corners], ?_⟩, ⟨by simp [corners], ?_⟩, ⟨by simp [corners], ?_⟩, ⟨by simp [corners], ?_⟩⟩ <;>
  · intro x h
    simp only [corners, List.map_cons, List.map_nil, List.mem_cons, List.not_mem_nil, or_false] at h
    rcases h with rfl | rfl | rfl | rfl <;> first | exact le_rfl | exact hx | exact hy

theorem corners_area (b : Box K) (cc : Bool) : signedPolyArea (corners b) cc = (if cc then 1 else -1) * ((b.xur - b.xll) * (b.yur - b.yll)) := by
  cases cc <;> simp [signedPolyArea, corners, vert, List.range_succ] <;> ring

/-- **Sorting with a containing rectangle.**  If the largest polygon has a negative area then a rectangle is added, closed, with
the color and layer of the largest polygon; it comes first, and every vertex and the window are strictly inside.  Otherwise the
polygons are only sorted.  The others stay in the order of their sizes in any case. -/
theorem sortRect_spec (sort : List (PtIdx K) → List (PtIdx K)) (hs : Sorts sort) (big : K) (win : Box K) (hwx : win.xll ≤ win.xur) (hwy : win.yll ≤ win.yur)
    (cc : Bool) (d : DPoly K) (ps : List (Poly K)) (h : Rep d ps) (hbig : -big ≤ big) (hne : ∀ q ∈ ps, q.verts ≠ []) :
    let r := sortBySizeAndMaybeAddBigContainingRect sort big win cc d
    ∃ qs, qs.Perm ps ∧ (qs.Pairwise fun a b => ¬ Larger big cc b a) ∧
      ((Rep r qs ∧ (∀ q, qs[0]? = some q → 0 ≤ signedPolyArea q.verts cc)) ∨
      ∃ (first : Poly K) (b : Box K) (qs' : List (Poly K)), qs[0]? = some first ∧ signedPolyArea first.verts cc < 0 ∧ qs'.Perm ps
        ∧ (qs'.Pairwise fun a b => ¬ Larger big cc b a) ∧ Rep r (⟨corners b, true, first.color, first.layer⟩ :: qs')
        ∧ (∀ q ∈ ps, ∀ v ∈ q.verts, b.xll < v.1 ∧ v.1 < b.xur ∧ b.yll < v.2 ∧ v.2 < b.yur)
        ∧ b.xll < win.xll ∧ win.xur < b.xur ∧ b.yll < win.yll ∧ win.yur < b.yur) := by
  intro r
  obtain ⟨qs, q1, q2, q3, _⟩ := sort_spec sort hs big cc d ps h
  refine ⟨qs, q2, q3, ?_⟩
  set d1 := sortFromLargestToSmallest sort big cc d with hd1
  have hr : r = sortBySizeAndMaybeAddBigContainingRect sort big win cc d := rfl
  unfold sortBySizeAndMaybeAddBigContainingRect at hr
  simp only [← hd1] at hr
  cases hqs : qs with
  | nil =>
    left
    rw [if_pos (by rw [q1.numPolys, hqs]; rfl)] at hr
    rw [hr]; rw [hqs] at q1; exact ⟨q1, by simp⟩
  | cons first rest =>
    rw [if_neg (by rw [q1.numPolys, hqs]; simp)] at hr
    have hn0 : d1.numVerts.getD 0 0 = first.verts.length := by rw [q1.numVerts, hqs]; rfl
    have hz : (d1.xv.take (d1.numVerts.getD 0 0)).zip (d1.yv.take (d1.numVerts.getD 0 0)) = first.verts := by
      rw [hn0, q1.xv, q1.yv, hqs, List.flatMap_cons, List.map_append, List.map_append, List.take_left' (by simp), List.take_left' (by simp), zip_coords]
    rw [hz] at hr
    by_cases ha : 0 ≤ signedPolyArea first.verts cc
    · left
      rw [if_pos ha] at hr
      rw [hr]; rw [hqs] at q1
      refine ⟨q1, ?_⟩
      intro q hq; simp at hq; rw [← hq]; exact ha
    · right
      rw [if_neg ha] at hr
      have hc : d1.colors.getD 0 "" = first.color := by rw [q1.colors, hqs]; rfl
      have hl : d1.layers.getD 0 "" = first.layer := by rw [q1.layers, hqs]; rfl
      rw [hc, hl] at hr
      have hfm : first ∈ ps := q2.mem_iff.mp (by rw [hqs]; simp)
      have hfv : qs.flatMap (·.verts) ≠ [] := by
        rw [hqs, List.flatMap_cons]; intro e; exact hne first hfm (List.append_eq_nil_iff.mp e).1
      have hB := boxOf_spec big _ hfv
      rw [← bdBox_eq big d1 qs q1] at hB
      set B := bdBox big d1 with hBdef
      have hall : ∀ q ∈ ps, ∀ v ∈ q.verts, B.xll ≤ v.1 ∧ v.1 ≤ B.xur ∧ B.yll ≤ v.2 ∧ v.2 ≤ B.yur := by
        intro q hq v hv
        have hm : v ∈ qs.flatMap (·.verts) := List.mem_flatMap.mpr ⟨q, q2.mem_iff.mpr hq, hv⟩
        exact ⟨hB.1.2 _ (List.mem_map_of_mem hm), hB.2.2.1.2 _ (List.mem_map_of_mem hm), hB.2.1.2 _ (List.mem_map_of_mem hm), hB.2.2.2.2 _ (List.mem_map_of_mem hm)⟩
      set X0 := min B.xll win.xll with hX0
      set X1 := max B.xur win.xur with hX1
      set Y0 := min B.yll win.yll with hY0
      set Y1 := max B.yur win.yur with hY1
      set ex := max |X1 - X0| |Y1 - Y0| + 10 with hex
      have hex0 : 0 < ex := by
        have : (0 : K) ≤ max |X1 - X0| |Y1 - Y0| := le_trans (abs_nonneg _) (le_max_left _ _)
        rw [hex]; linarith
      have bx0 : X0 ≤ B.xll := min_le_left _ _
      have bx1 : B.xur ≤ X1 := le_max_left _ _
      have by0 : Y0 ≤ B.yll := min_le_left _ _
      have by1 : B.yur ≤ Y1 := le_max_left _ _
      have wx0 : X0 ≤ win.xll := min_le_right _ _
      have wx1 : win.xur ≤ X1 := le_max_right _ _
      have wy0 : Y0 ≤ win.yll := min_le_right _ _
      have wy1 : win.yur ≤ Y1 := le_max_right _ _
      set b : Box K := ⟨X0 - ex, Y0 - ex, X1 + ex, Y1 + ex⟩ with hb
      have happ := appendRectangle_rep d1 qs q1 b.xll b.yll b.xur b.yur true first.color first.layer
      obtain ⟨rs, r1, r2, r3, _⟩ := sort_spec sort hs big cc _ _ happ
      rw [← hr] at r1
      set rect : Poly K := ⟨corners b, true, first.color, first.layer⟩ with hrect
      have r2' : rs.Perm (rect :: qs) := r2.trans (List.perm_append_singleton _ _)
      have hbx : IsBox b (corners b) := corners_box b (by simp only [hb]; linarith) (by simp only [hb]; linarith)
      have hbne : corners b ≠ [] := by simp [corners]
      have hbo : boxOf big (corners b) = b := isBox_unique _ _ _ (boxOf_spec big _ hbne) hbx
      have hbigger : ∀ q ∈ ps, Larger big cc rect q := by
        intro q hq
        left
        have hbq := boxOf_spec big q.verts (hne q hq)
        obtain ⟨v, hv, hve⟩ := List.mem_map.mp hbq.1.1
        obtain ⟨u, hu, hue⟩ := List.mem_map.mp hbq.2.2.1.1
        have h1 := (hall q hq v hv).1
        have h2 := (hall q hq u hu).2.1
        show (boxOf big q.verts).xur - (boxOf big q.verts).xll < (boxOf big (corners b)).xur - (boxOf big (corners b)).xll
        rw [hbo, ← hve, ← hue]
        show u.1 - v.1 < (X1 + ex) - (X0 - ex)
        linarith
      -- the rectangle is first
      cases hrs : rs with
      | nil => rw [hrs] at r2'; exact absurd r2'.length_eq (by simp)
      | cons f t =>
        have hf : f = rect := by
          have hm : rect ∈ rs := r2'.mem_iff.mpr (by simp)
          by_contra hf
          have ht : rect ∈ t := by
            rw [hrs] at hm
            rcases List.mem_cons.mp hm with e | e
            · exact absurd e.symm hf
            · exact e
          rw [hrs] at r3
          have hnl := (List.pairwise_cons.mp r3).1 rect ht
          have hfm : f ∈ rect :: qs := r2'.mem_iff.mp (by rw [hrs]; simp)
          rcases List.mem_cons.mp hfm with e | e
          · exact hf e
          · exact hnl (hbigger f (q2.mem_iff.mp e))
        rw [hrs, hf] at r1 r2' r3
        refine ⟨first, b, t, rfl, not_le.mp ha, ((List.perm_cons rect).mp r2').trans q2, (List.pairwise_cons.mp r3).2, r1, ?_, ?_, ?_, ?_, ?_⟩
        · intro q hq v hv
          obtain ⟨a1, a2, a3, a4⟩ := hall q hq v hv
          simp only [hb]
          exact ⟨by linarith, by linarith, by linarith, by linarith⟩
        all_goals simp only [hb]; linarith

/-- If polygons are taken to be clockwise the added rectangle is itself a hole: it goes counterclockwise. -/
theorem sortRect_clockwise (b : Box K) (hx : b.xll < b.xur) (hy : b.yll < b.yur) :
    0 < signedPolyArea (corners b) true ∧ signedPolyArea (corners b) false < 0 := by
  have : 0 < (b.xur - b.xll) * (b.yur - b.yll) := mul_pos (by linarith) (by linarith)
  rw [corners_area, corners_area]
  simp only [if_true, Bool.false_eq_true, if_false]
  constructor <;> linarith

/-! ### Cases -/

/-- Insertion sort. -/
def isort (l : List (PtIdx ℚ)) : List (PtIdx ℚ) := l.insertionSort fun a b => ¬ greaterThanPtIndex b a

def exB : List (Poly ℚ) := [⟨[(1, 1), (1, 2), (2, 2)], true, "red", ""⟩, ⟨[(0, 0), (0, 9), (9, 9)], true, "blue", "1:2"⟩]
def exE : DPoly ℚ := ⟨false, [1, 1, 2, 0, 0, 9], [1, 2, 2, 0, 9, 9], [3, 3], 2, 6, [true, true], ["red", "blue"], ["", "1:2"], [], [], [], []⟩
theorem exB_rep : Rep exE exB := by constructor <;> rfl
example : (sortFromLargestToSmallest isort 1000000 true exE).colors = ["blue", "red"] ∧
  (sortFromLargestToSmallest isort 1000000 true exE).xv = [0, 0, 9, 1, 1, 2] := by decide +kernel
example : (sortBySizeAndMaybeAddBigContainingRect isort 1000000 ⟨0, 0, 1, 1⟩ true exE).numVerts = [4, 3, 3] := by decide +kernel
example : (sortBySizeAndMaybeAddBigContainingRect isort 1000000 ⟨0, 0, 1, 1⟩ true exE).xv = [-19, 28, 28, -19, 0, 0, 9, 1, 1, 2] := by decide +kernel

end Verif.Geom.Polys
