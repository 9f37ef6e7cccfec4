import Mathlib.Tactic.Linarith
import Verif.Geom.DPoly.SortProps
import Verif.Geom.DPoly.Erase
import Verif.Geom.Poly.PolyProps

/-
C127: clipping polygons to a box; marking and erasing the polygons that intersect a box.
-/

namespace Verif.Geom.Polys

open Verif.Geom.Poly

variable {K : Type} [Field K] [LinearOrder K]

/-- The pieces of a polygon with its attributes. -/
def withAttrs (q : Poly K) (ls : List (List (Pt K))) : List (Poly K) := ls.map fun c => { q with verts := c }

theorem append_pieces (q : Poly K) (ls : List (List (Pt K))) : ∀ (out : DPoly K) (os : List (Poly K)), Rep out os →
    let r := ls.foldl (fun out c => appendPolygon out c.length (c.map Prod.fst) (c.map Prod.snd) q.closed q.color q.layer) out
    Rep r (os ++ nonempty (withAttrs q ls)) ∧ r.cloud = out.cloud := by
  induction ls with
  | nil => intro out os h; simpa [withAttrs, nonempty] using h
  | cons c ls ih =>
    intro out os h
    obtain ⟨h1, _⟩ := appendPolygon_rep out os h c.length (c.map Prod.fst) (c.map Prod.snd) { q with verts := c } rfl (by simp) (by simp)
    obtain ⟨h2, h3⟩ := ih _ _ h1
    refine ⟨?_, ?_⟩
    · have e : (if c = [] then os else os ++ [{ q with verts := c }]) ++ nonempty (withAttrs q ls) = os ++ nonempty (withAttrs q (c :: ls)) := by
        by_cases hc : c = [] <;> simp [hc, withAttrs, nonempty]
      rw [← e]; exact h2
    · rw [List.foldl_cons, h3]
      unfold appendPolygon; split <;> rfl

/-- What is left of a polygon. -/
def pieces (sort : List (ValIndex K) → List (ValIndex K)) (b : Box K) (cloud : Bool) (q : Poly K) : List (Poly K) :=
  nonempty (withAttrs q (clipOne sort b cloud q.closed q.verts))

theorem slice_verts (d : DPoly K) (ps : List (Poly K)) (h : Rep d ps) (as rs : List (Poly K)) (q : Poly K) (e : ps = as ++ q :: rs) :
    (((d.xv.drop (as.flatMap (·.verts)).length).take q.verts.length).zip ((d.yv.drop (as.flatMap (·.verts)).length).take q.verts.length)) = q.verts := by
  rw [h.xv, h.yv, e, List.flatMap_append, List.flatMap_cons]
  simp only [List.map_append]
  rw [List.drop_left' (by simp), List.drop_left' (by simp), List.take_left' (by simp), List.take_left' (by simp), zip_coords]

theorem getD_attrs (d : DPoly K) (ps : List (Poly K)) (h : Rep d ps) (as rs : List (Poly K)) (q : Poly K) (e : ps = as ++ q :: rs) :
    d.closed.getD as.length false = q.closed ∧ d.colors.getD as.length "" = q.color ∧ d.layers.getD as.length "" = q.layer := by
  rw [h.closed, h.colors, h.layers, e]
  simp

theorem clip_loop (sort : List (ValIndex K) → List (ValIndex K)) (b : Box K) (d : DPoly K) (ps : List (Poly K)) (h : Rep d ps) :
    ∀ (rs as : List (Poly K)) (out : DPoly K) (os : List (Poly K)), ps = as ++ rs → Rep out os →
    let r := polyLoop (fun p s n (out : DPoly K) =>
      let cut := clipOne sort b d.cloud (d.closed.getD p false) (((d.xv.drop s).take n).zip ((d.yv.drop s).take n))
      cut.foldl (fun out c => appendPolygon out c.length (c.map Prod.fst) (c.map Prod.snd) (d.closed.getD p false) (d.colors.getD p "")
        (d.layers.getD p "")) out) as.length (as.flatMap (·.verts)).length (rs.map (·.verts.length)) out
    Rep r (os ++ rs.flatMap (pieces sort b d.cloud)) ∧ r.cloud = out.cloud := by
  intro rs
  induction rs with
  | nil => intro as out os _ ho; simpa [polyLoop] using ho
  | cons q rs ih =>
    intro as out os e ho
    simp only [List.map_cons, polyLoop]
    rw [slice_verts d ps h as rs q e]
    obtain ⟨a1, a2, a3⟩ := getD_attrs d ps h as rs q e
    rw [a1, a2, a3]
    obtain ⟨h1, h2⟩ := append_pieces q (clipOne sort b d.cloud q.closed q.verts) out os ho
    have := ih (as ++ [q]) _ _ (by rw [e]; simp) h1
    simp only [List.length_append, List.length_singleton, List.flatMap_append, List.flatMap_singleton] at this
    obtain ⟨h3, h4⟩ := this
    refine ⟨?_, by rw [h4, h2]⟩
    rw [List.flatMap_cons, ← List.append_assoc]
    exact h3

theorem clip_rep (sort : List (ValIndex K) → List (ValIndex K)) (b : Box K) (d : DPoly K) (ps : List (Poly K)) (h : Rep d ps) :
    Rep (clipPoly sort b d) (ps.flatMap (pieces sort b d.cloud)) ∧ (clipPoly sort b d).cloud = d.cloud := by
  have h0 : Rep ({ reset with cloud := d.cloud } : DPoly K) [] := by constructor <;> rfl
  have := clip_loop sort b d ps h ps [] _ _ rfl h0
  simp only [List.length_nil, List.flatMap_nil, List.nil_append] at this
  obtain ⟨h1, h2⟩ := this
  rw [← take_all d ps h] at h1 h2
  refine ⟨?_, h2⟩
  constructor
  · exact h1.xv
  · exact h1.yv
  · exact h1.numVerts
  · exact h1.numPolys
  · exact h1.total
  · exact h1.closed
  · exact h1.colors
  · exact h1.layers

/-- The point is in the box, the border included. -/
def InBox (b : Box K) (p : Pt K) : Prop := b.xll ≤ p.1 ∧ p.1 ≤ b.xur ∧ b.yll ≤ p.2 ∧ p.2 ≤ b.yur

/-- The point is inside of the box. -/
def InsideBox (b : Box K) (p : Pt K) : Prop := b.xll < p.1 ∧ p.1 < b.xur ∧ b.yll < p.2 ∧ p.2 < b.yur

theorem inBox_iff (b : Box K) (p : Pt K) : inBox b p = true ↔ InBox b p := by
  simp [inBox, InBox, and_assoc]

variable [IsStrictOrderedRing K]

theorem clipOne_in (sort : List (ValIndex K) → List (ValIndex K)) (hs : ∀ p, (sort p).Perm p) (b : Box K) (cloud closed : Bool) (l : List (Pt K)) :
    ∀ c ∈ clipOne sort b cloud closed l, ∀ p ∈ c, InBox b p := by
  intro c hc p hp
  unfold clipOne at hc
  by_cases h1 : cloud = true
  · rw [if_pos h1, List.mem_singleton] at hc
    rw [hc] at hp
    exact (inBox_iff b p).mp (List.mem_filter.mp hp).2
  · rw [if_neg h1] at hc
    by_cases h2 : closed = true
    · rw [if_pos h2] at hc
      exact (cutPoly_in_window sort hs _ _ _ _ _ c hc).2 p hp
    · rw [if_neg h2] at hc
      unfold cutPolyLine at hc
      obtain ⟨c', hc', rfl⟩ := List.mem_map.mp hc
      exact (cutPoly_in_window sort hs _ _ _ _ _ c' hc').2 p (List.mem_of_mem_take hp)

theorem clipOne_unchanged (sort : List (ValIndex K) → List (ValIndex K)) (b : Box K) (cloud closed : Bool) (l : List (Pt K)) (hl : l ≠ [])
    (h : ∀ p ∈ l, InsideBox b p) : clipOne sort b cloud closed l = [l] := by
  unfold clipOne
  by_cases h1 : cloud = true
  · rw [if_pos h1, List.filter_eq_self.mpr]
    intro p hp
    obtain ⟨a1, a2, a3, a4⟩ := h p hp
    exact (inBox_iff b p).mpr ⟨a1.le, a2.le, a3.le, a4.le⟩
  · rw [if_neg h1]
    by_cases h2 : closed = true
    · rw [if_pos h2, cutPoly_unchanged]
      intro l' hl'
      rw [List.mem_singleton] at hl'
      rw [hl']; exact ⟨hl, h⟩
    · rw [if_neg h2]
      unfold cutPolyLine
      rw [cutPoly_unchanged]
      · simp only [List.map_cons, List.map_nil, List.length_append, List.length_reverse]
        rw [List.take_left' (by omega)]
      · intro l' hl'
        rw [List.mem_singleton] at hl'
        rw [hl']
        refine ⟨by simp [hl], ?_⟩
        intro p hp
        apply h
        simpa using hp

/-- All points are strictly on the outer side of one side of the box. -/
def Beyond (b : Box K) (l : List (Pt K)) : Prop :=
  (∀ p ∈ l, p.1 < b.xll) ∨ (∀ p ∈ l, b.xur < p.1) ∨ (∀ p ∈ l, p.2 < b.yll) ∨ (∀ p ∈ l, b.yur < p.2)

omit [IsStrictOrderedRing K] in
theorem bound_of_lt [IsStrictOrderedRing K] (f : Pt K → K) (c : K) (l : List (Pt K)) (h : ∀ p ∈ l, f p < c) : ∃ M, M < c ∧ ∀ p ∈ l, f p ≤ M := by
  induction l with
  | nil => exact ⟨c - 1, by linarith, by simp⟩
  | cons a l ih =>
    obtain ⟨M, hM, hl⟩ := ih fun p hp => h p (List.mem_cons_of_mem _ hp)
    refine ⟨max M (f a), max_lt hM (h a (List.mem_cons_self ..)), ?_⟩
    intro p hp
    rcases List.mem_cons.mp hp with rfl | hp
    · exact le_max_right _ _
    · exact (hl p hp).trans (le_max_left _ _)

theorem cutPoly_hull (sort : List (ValIndex K) → List (ValIndex K)) (hs : ∀ p, (sort p).Perm p) (b : Box K) (l : List (Pt K)) (m : Pt K) (M : K)
    (h : ∀ p ∈ l, dot m p ≤ M) : ∀ c ∈ cutPoly sort b.xll b.yll b.xur b.yur [l], ∀ p ∈ c, dot m p ≤ M := by
  unfold cutPoly
  exact (cutAll_vertices sort hs _ _ _).2 m M ((cutAll_vertices sort hs _ _ _).2 m M ((cutAll_vertices sort hs _ _ _).2 m M
    ((cutAll_vertices sort hs _ _ _).2 m M (by intro l' hl'; rw [List.mem_singleton] at hl'; rw [hl']; exact h))))

theorem cutPoly_beyond (sort : List (ValIndex K) → List (ValIndex K)) (hs : ∀ p, (sort p).Perm p) (b : Box K) (l : List (Pt K)) (h : Beyond b l) :
    cutPoly sort b.xll b.yll b.xur b.yur [l] = [] := by
  apply List.eq_nil_iff_forall_not_mem.mpr
  intro c hc
  obtain ⟨hne, hw⟩ := cutPoly_in_window sort hs _ _ _ _ _ c hc
  obtain ⟨p, hp⟩ := List.exists_mem_of_ne_nil c hne
  obtain ⟨w1, w2, w3, w4⟩ := hw p hp
  rcases h with h | h | h | h
  · obtain ⟨M, hM, hl⟩ := bound_of_lt (fun p => p.1) _ l h
    have := cutPoly_hull sort hs b l (1, 0) M (by intro p hp; simpa [dot] using hl p hp) c hc p hp
    simp [dot] at this; linarith
  · obtain ⟨M, hM, hl⟩ := bound_of_lt (fun p => -p.1) (-b.xur) l (fun p hp => by simpa using h p hp)
    have := cutPoly_hull sort hs b l (-1, 0) M (by intro p hp; simpa [dot] using hl p hp) c hc p hp
    simp [dot] at this; linarith
  · obtain ⟨M, hM, hl⟩ := bound_of_lt (fun p => p.2) _ l h
    have := cutPoly_hull sort hs b l (0, 1) M (by intro p hp; simpa [dot] using hl p hp) c hc p hp
    simp [dot] at this; linarith
  · obtain ⟨M, hM, hl⟩ := bound_of_lt (fun p => -p.2) (-b.yur) l (fun p hp => by simpa using h p hp)
    have := cutPoly_hull sort hs b l (0, -1) M (by intro p hp; simpa [dot] using hl p hp) c hc p hp
    simp [dot] at this; linarith

omit [Field K] [IsStrictOrderedRing K] in
theorem beyond_double (b : Box K) (l : List (Pt K)) (h : Beyond b l) : Beyond b (l ++ l.reverse) := by
  unfold Beyond at *
  simpa using h

omit [IsStrictOrderedRing K] in
theorem pieces_nil_of (sort : List (ValIndex K) → List (ValIndex K)) (b : Box K) (cloud : Bool) (q : Poly K)
    (h : ∀ c ∈ clipOne sort b cloud q.closed q.verts, c = []) : pieces sort b cloud q = [] := by
  unfold pieces nonempty
  rw [List.filter_eq_nil_iff]
  intro r hr
  obtain ⟨c, hc, rfl⟩ := List.mem_map.mp hr
  simp [h c hc]

theorem pieces_beyond (sort : List (ValIndex K) → List (ValIndex K)) (hs : ∀ p, (sort p).Perm p) (b : Box K) (cloud : Bool) (q : Poly K)
    (h : Beyond b q.verts) : pieces sort b cloud q = [] := by
  apply pieces_nil_of
  intro c hc
  unfold clipOne at hc
  by_cases h1 : cloud = true
  · rw [if_pos h1, List.mem_singleton] at hc
    rw [hc]
    apply List.filter_eq_nil_iff.mpr
    intro p hp hb
    obtain ⟨b1, b2, b3, b4⟩ := (inBox_iff b p).mp hb
    rcases h with h | h | h | h
    · exact absurd (h p hp) (not_lt.mpr b1)
    · exact absurd (h p hp) (not_lt.mpr b2)
    · exact absurd (h p hp) (not_lt.mpr b3)
    · exact absurd (h p hp) (not_lt.mpr b4)
  · rw [if_neg h1] at hc
    by_cases h2 : q.closed = true
    · rw [if_pos h2, cutPoly_beyond sort hs b _ h] at hc
      simp at hc
    · rw [if_neg h2] at hc
      unfold cutPolyLine at hc
      rw [cutPoly_beyond sort hs b _ (beyond_double b _ h)] at hc
      simp at hc

/-- The pieces that `clipPoly` makes of the polygon `q` of a set of polygons: `rs`. -/
structure Clipped (b : Box K) (cloud : Bool) (q : Poly K) (rs : List (Poly K)) : Prop where
  /-- no piece is empty; it has the attributes of the polygon and is in the box -/
  piece : ∀ r ∈ rs, r.verts ≠ [] ∧ r.closed = q.closed ∧ r.color = q.color ∧ r.layer = q.layer ∧ ∀ p ∈ r.verts, InBox b p
  /-- inside of the box the pieces of a closed polygon cover what the polygon does -/
  inside : cloud = false → q.closed = true → ∀ x, InsideBox b x → Off (edges q.verts) x →
    wind x (rs.map (·.verts)) = wind x [q.verts] ∧ Off ((rs.map (·.verts)).flatMap edges) x
  /-- outside they cover nothing -/
  outside : cloud = false → q.closed = true → ∀ x, ¬ InBox b x → wind x (rs.map (·.verts)) = 0
  /-- a polygon inside of the box is not changed -/
  whole : q.verts ≠ [] → (∀ p ∈ q.verts, InsideBox b p) → rs = [q]
  /-- nothing is left of a polygon beyond a side of the box -/
  none : Beyond b q.verts → rs = []
  /-- of a point cloud exactly the points in the box are left -/
  points : cloud = true → rs.flatMap (·.verts) = q.verts.filter fun p => inBox b p

theorem pieces_clipped (sort : List (ValIndex K) → List (ValIndex K)) (hs : ∀ p, (sort p).Perm p) (b : Box K) (cloud : Bool) (q : Poly K) :
    Clipped b cloud q (pieces sort b cloud q) := by
  have hv : cloud = false → q.closed = true → (pieces sort b cloud q).map (·.verts) = cutPoly sort b.xll b.yll b.xur b.yur [q.verts] := by
    intro h1 h2
    unfold pieces clipOne
    rw [h1, h2]
    simp only [Bool.false_eq_true, if_false, if_true]
    have hne := cutPoly_in_window sort hs b.xll b.yll b.xur b.yur [q.verts]
    generalize cutPoly sort b.xll b.yll b.xur b.yur [q.verts] = L at hne
    unfold nonempty withAttrs
    rw [List.filter_eq_self.mpr]
    · rw [List.map_map]; exact List.map_id L
    · intro r hr
      obtain ⟨c, hc, rfl⟩ := List.mem_map.mp hr
      simpa using (hne c hc).1
  refine ⟨?_, ?_, ?_, ?_, ?_, ?_⟩
  · intro r hr
    obtain ⟨h1, h2⟩ := List.mem_filter.mp hr
    obtain ⟨c, hc, rfl⟩ := List.mem_map.mp h1
    exact ⟨by simpa using h2, rfl, rfl, rfl, clipOne_in sort hs b cloud q.closed q.verts c hc⟩
  · intro h1 h2 x hx hoff
    rw [hv h1 h2]
    exact cutPoly_inside sort hs _ _ _ _ _ x ⟨hx.1, hx.2.1⟩ ⟨hx.2.2.1, hx.2.2.2⟩ (by simpa using hoff)
  · intro h1 h2 x hx
    rw [hv h1 h2]
    refine (cutPoly_outside sort hs _ _ _ _ _ x ?_).1
    unfold InBox at hx
    by_contra hc
    rw [not_or, not_or, not_or] at hc
    exact hx ⟨not_lt.mp hc.1, not_lt.mp hc.2.1, not_lt.mp hc.2.2.1, not_lt.mp hc.2.2.2⟩
  · intro h1 h2
    unfold pieces
    rw [clipOne_unchanged sort b cloud q.closed q.verts h1 h2]
    simp [withAttrs, nonempty, h1]
  · exact pieces_beyond sort hs b cloud q
  · intro h1
    unfold pieces clipOne
    rw [if_pos h1]
    by_cases hf : q.verts.filter (fun p => inBox b p) = []
    · simp [withAttrs, nonempty, hf]
    · simp only [withAttrs, nonempty, List.map_cons, List.map_nil]
      rw [List.filter_cons_of_pos (by simpa using hf)]
      simp

/-- **Clipping.**  `clipPoly` replaces each polygon, in order, by its pieces, keeps the annotations in the box, and the rest. -/
theorem clip_spec (sort : List (ValIndex K) → List (ValIndex K)) (hs : ∀ p, (sort p).Perm p) (b : Box K) (d : DPoly K) (ps : List (Poly K)) (h : Rep d ps) :
    ∃ rss : List (List (Poly K)), Rep (clipPoly sort b d) rss.flatten ∧ List.Forall₂ (Clipped b d.cloud) ps rss
      ∧ (clipPoly sort b d).cloud = d.cloud
      ∧ (clipPoly sort b d).annos = d.annos.filter fun a => inBox b (a.x, a.y) := by
  obtain ⟨h1, h2⟩ := clip_rep sort b d ps h
  refine ⟨ps.map (pieces sort b d.cloud), ?_, ?_, h2, rfl⟩
  · rw [← List.flatMap_def]; exact h1
  · rw [List.forall₂_map_right_iff]
    exact List.forall₂_same.mpr fun q _ => pieces_clipped sort hs b d.cloud q

/-! ### Marking -/

/-- Is the polygon marked? -/
def hitsBox (sort : List (ValIndex K) → List (ValIndex K)) (b : Box K) (q : Poly K) : Bool :=
  if q.verts.length = 1 then inBox b (q.verts.getD 0 (0, 0)) else !(pieces sort b false q).isEmpty

omit [Field K] [LinearOrder K] [IsStrictOrderedRing K] in
theorem rep_total_zero (d : DPoly K) (ps : List (Poly K)) (h : Rep d ps) (hne : ∀ q ∈ ps, q.verts ≠ []) : d.totalNumVerts = 0 ↔ ps = [] := by
  rw [h.total]
  constructor
  · intro e
    cases ps with
    | nil => rfl
    | cons q ps =>
      simp only [List.map_cons, List.sum_cons] at e
      exact absurd (List.length_eq_zero_iff.mp (by omega)) (hne q (List.mem_cons_self ..))
  · rintro rfl; rfl

omit [IsStrictOrderedRing K] in
theorem clip_hit (sort : List (ValIndex K) → List (ValIndex K)) (b : Box K) (e : DPoly K) (q : Poly K) (h : Rep e (nonempty [q])) (hc : e.cloud = false) :
    ((clipPoly sort b e).totalNumVerts != 0) = !(if q.verts = [] then [] else pieces sort b false q).isEmpty := by
  obtain ⟨h1, _⟩ := clip_rep sort b e _ h
  rw [hc] at h1
  have hne : ∀ r ∈ (nonempty [q]).flatMap (pieces sort b false), r.verts ≠ [] := by
    intro r hr
    obtain ⟨q', _, hr⟩ := List.mem_flatMap.mp hr
    simpa using (List.mem_filter.mp hr).2
  have h2 := rep_total_zero _ _ h1 hne
  have e1 : (nonempty [q]).flatMap (pieces sort b false) = if q.verts = [] then [] else pieces sort b false q := by
    by_cases hq : q.verts = [] <;> simp [nonempty, hq]
  rw [e1] at h2
  rw [Bool.eq_iff_iff]
  simp only [bne_iff_ne, ne_eq, h2, Bool.not_eq_true', List.isEmpty_eq_false_iff]

theorem pieces_empty (sort : List (ValIndex K) → List (ValIndex K)) (hs : ∀ p, (sort p).Perm p) (b : Box K) (cloud : Bool) (q : Poly K) (h : q.verts = []) :
    pieces sort b cloud q = [] := (pieces_clipped sort hs b cloud q).none (Or.inl (by simp [h]))

theorem mark_eq (sort : List (ValIndex K) → List (ValIndex K)) (hs : ∀ p, (sort p).Perm p) (b : Box K) (d : DPoly K) (ps : List (Poly K)) (h : Rep d ps) :
    markPolysIntersectingBox sort b d = (List.range ps.length).filter fun i => (ps[i]?).elim false (hitsBox sort b) := by
  have key : ∀ m, m ≤ ps.length →
      forRange m (fun p (st : Nat × List Nat) =>
        let hit :=
          if d.numVerts.getD p 0 = 1 then inBox b (d.xv.getD st.1 0, d.yv.getD st.1 0)
          else (clipPoly sort b (extractOnePoly p (some ((startingIndices d).getD p 0)) d)).totalNumVerts != 0
        (st.1 + d.numVerts.getD p 0, if hit then st.2 ++ [p] else st.2)) (0, [])
      = (((ps.take m).flatMap (·.verts)).length, (List.range m).filter fun i => (ps[i]?).elim false (hitsBox sort b)) := by
    intro m
    induction m with
    | zero => intro _; simp [forRange]
    | succ m ih =>
      intro hm
      rw [forRange_succ, ih (by omega)]
      have hm' : m < ps.length := by omega
      have hn := numVerts_getD d ps h m hm'
      have hst : ((ps.take m).flatMap (·.verts)).length + d.numVerts.getD m 0 = ((ps.take (m + 1)).flatMap (·.verts)).length := by
        rw [hn, List.take_succ_eq_append_getElem hm', List.flatMap_append, List.flatMap_singleton, List.length_append]
      have hhit : (if d.numVerts.getD m 0 = 1 then inBox b (d.xv.getD ((ps.take m).flatMap (·.verts)).length 0, d.yv.getD ((ps.take m).flatMap (·.verts)).length 0)
          else (clipPoly sort b (extractOnePoly m (some ((startingIndices d).getD m 0)) d)).totalNumVerts != 0) = hitsBox sort b ps[m] := by
        unfold hitsBox
        rw [hn]
        by_cases h1 : ps[m].verts.length = 1
        · rw [if_pos h1, if_pos h1]
          obtain ⟨e1, e2⟩ := getD_vert d ps h (ps.take m) (ps.drop (m + 1)) ps[m] (split_at ps m hm') 0 (by omega)
          rw [Nat.add_zero] at e1 e2
          rw [e1, e2]
        · rw [if_neg h1, if_neg h1]
          obtain ⟨x1, _⟩ := extractOne_rep d ps h m hm' _ (Or.inr rfl)
          have hcl : (extractOnePoly m (some ((startingIndices d).getD m 0)) d).cloud = false := by
            simp only [extractOnePoly, setPolygon, appendPolygon]
            split <;> rfl
          rw [clip_hit sort b _ _ x1 hcl]
          by_cases hq : ps[m].verts = []
          · rw [if_pos hq, pieces_empty sort hs b false _ hq]
          · rw [if_neg hq]
      simp only []
      rw [hhit, hst, List.range_succ, List.filter_append]
      have hg : ps[m]? = some ps[m] := List.getElem?_eq_getElem hm'
      cases hh : hitsBox sort b ps[m] <;> simp [hg, hh]
  unfold markPolysIntersectingBox
  simp only []
  rw [h.numPolys, key ps.length le_rfl]

/-- **Marking the polygons that intersect a box.**  Marked, in increasing order, is a single point exactly if it is in the box;
an other polygon if all its vertices are inside of the box or, being closed, it winds around a point inside of the box; and it is not
if it is beyond a side of the box. -/
theorem mark_spec (sort : List (ValIndex K) → List (ValIndex K)) (hs : ∀ p, (sort p).Perm p) (b : Box K) (d : DPoly K) (ps : List (Poly K)) (h : Rep d ps) :
    (markPolysIntersectingBox sort b d).Pairwise (· < ·) ∧ (∀ i ∈ markPolysIntersectingBox sort b d, i < ps.length) ∧
    ∀ i, ∀ hi : i < ps.length,
      (∀ v, ps[i].verts = [v] → (i ∈ markPolysIntersectingBox sort b d ↔ InBox b v)) ∧
      (ps[i].verts ≠ [] → (∀ v ∈ ps[i].verts, InsideBox b v) → i ∈ markPolysIntersectingBox sort b d) ∧
      (ps[i].closed = true → (∃ x, InsideBox b x ∧ Off (edges ps[i].verts) x ∧ wind x [ps[i].verts] ≠ 0) → i ∈ markPolysIntersectingBox sort b d) ∧
      (Beyond b ps[i].verts → i ∉ markPolysIntersectingBox sort b d) := by
  rw [mark_eq sort hs b d ps h]
  refine ⟨List.pairwise_lt_range.filter _, fun i hi => by simpa using (List.mem_filter.mp hi).1, ?_⟩
  intro i hi
  have hmem : (i ∈ (List.range ps.length).filter fun i => (ps[i]?).elim false (hitsBox sort b)) ↔ hitsBox sort b ps[i] = true := by
    rw [List.mem_filter, List.getElem?_eq_getElem hi]
    simp [hi]
  rw [hmem]
  have hp := pieces_clipped sort hs b false ps[i]
  refine ⟨?_, ?_, ?_, ?_⟩
  · intro v hv
    unfold hitsBox
    rw [hv]
    simp [inBox_iff]
  · intro h1 h2
    unfold hitsBox
    by_cases h3 : ps[i].verts.length = 1
    · rw [if_pos h3]
      obtain ⟨v, hv⟩ := List.length_eq_one_iff.mp h3
      obtain ⟨a1, a2, a3, a4⟩ := h2 v (by simp [hv])
      rw [hv]
      exact (inBox_iff b v).mpr ⟨a1.le, a2.le, a3.le, a4.le⟩
    · rw [if_neg h3, hp.whole h1 h2]; rfl
  · rintro h1 ⟨x, h2, h3, h4⟩
    unfold hitsBox
    have hne : ps[i].verts.length ≠ 1 := by
      intro e
      obtain ⟨v, hv⟩ := List.length_eq_one_iff.mp e
      rw [hv] at h4
      apply h4
      have hup : ∀ a : Pt K, up a a = 0 := by
        intro a
        unfold up
        rw [if_neg (fun h => absurd h.1 (not_le.mpr h.2.1)), if_neg (fun h => absurd h.1 (not_le.mpr h.2.1))]
      simp [wind, windRay, edges, hup]
    rw [if_neg hne]
    have := (hp.inside rfl h1 x h2 h3).1
    cases hpc : pieces sort b false ps[i] with
    | nil => rw [hpc] at this; exact absurd this.symm h4
    | cons r rs => rfl
  · intro h1
    unfold hitsBox
    by_cases h3 : ps[i].verts.length = 1
    · rw [if_pos h3]
      obtain ⟨v, hv⟩ := List.length_eq_one_iff.mp h3
      rw [hv]
      intro hb
      obtain ⟨b1, b2, b3, b4⟩ := (inBox_iff b v).mp hb
      rw [hv] at h1
      rcases h1 with h | h | h | h
      · exact absurd (h v (by simp)) (not_lt.mpr b1)
      · exact absurd (h v (by simp)) (not_lt.mpr b2)
      · exact absurd (h v (by simp)) (not_lt.mpr b3)
      · exact absurd (h v (by simp)) (not_lt.mpr b4)
    · rw [if_neg h3, hp.none h1]; simp

omit [IsStrictOrderedRing K] in
/-- **Erasing the polygons that intersect a box** takes out those that are marked. -/
theorem eraseBox_spec (sort : List (ValIndex K) → List (ValIndex K)) (b : Box K) (d : DPoly K) (ps : List (Poly K)) (h : Rep d ps) :
    Rep (erasePolysIntersectingBox sort b d) (unmarked (markPolysIntersectingBox sort b d) ps)
      ∧ (erasePolysIntersectingBox sort b d).annos = d.annos :=
  eraseMarked_rep d ps h _

/-! ### Cases -/

def exSort (l : List (ValIndex ℚ)) : List (ValIndex ℚ) := l.insertionSort fun a b => a.val ≤ b.val

/-- A triangle, an open line, a point. -/
def exP : List (Poly ℚ) := [⟨[(0, 0), (4, 0), (4, 4)], true, "red", ""⟩, ⟨[(0, 1), (4, 1), (4, 9)], false, "blue", ""⟩, ⟨[(7, 7)], false, "blue", ""⟩]
def exPD : DPoly ℚ := ⟨false, [0, 4, 4, 0, 4, 4, 7], [0, 0, 4, 1, 1, 9, 7], [3, 3, 1], 3, 7, [true, false, false], ["red", "blue", "blue"], ["", "", ""],
  [⟨1, 1, "a"⟩, ⟨9, 9, "b"⟩], [], [], []⟩
example : Rep exPD exP := by constructor <;> rfl
example : (clipPoly exSort ⟨1, -1, 5, 3⟩ exPD).numVerts = [5, 3] ∧ (clipPoly exSort ⟨1, -1, 5, 3⟩ exPD).xv = [1, 4, 4, 3, 1, 1, 4, 4]
  ∧ (clipPoly exSort ⟨1, -1, 5, 3⟩ exPD).closed = [true, false] := by decide +kernel
example : markPolysIntersectingBox exSort ⟨1, -1, 5, 3⟩ exPD = [0, 1] ∧ markPolysIntersectingBox exSort ⟨6, 6, 8, 8⟩ exPD = [2] := by decide +kernel

end Verif.Geom.Polys
