import Mathlib.Tactic.Linarith
import Verif.Geom.DPoly.QueryProps

/-
C128: writing polygons to a file and reading them back.
-/

namespace Verif.Geom.Polys

open Verif.Geom.Poly

variable {K : Type} [Field K] [LinearOrder K]

/-- Reading lines none of which is the last one of the file. -/
def readAll (cloud : Bool) (ls : List (Line K)) (st : RState K) : RState K := ls.foldl (fun st l => readBody cloud l false st) st

theorem readAll_append (cloud : Bool) (a b : List (Line K)) (st : RState K) : readAll cloud (a ++ b) st = readAll cloud b (readAll cloud a st) := by
  simp [readAll, List.foldl_append]

theorem readLoop_last (cloud : Bool) (l : Line K) : ∀ (ls : List (Line K)) (st : RState K),
    readLoop cloud (ls ++ [l]) st = readBody cloud l true (readAll cloud ls st) := by
  intro ls
  induction ls with
  | nil => intro st; rfl
  | cons a ls ih =>
    intro st
    have he : (ls ++ [l]).isEmpty = false := by simp
    show readLoop cloud (ls ++ [l]) (readBody cloud a (ls ++ [l]).isEmpty st) = _
    rw [he, ih]; rfl

/-- The last line of the file makes no difference if no polygon is left open. -/
theorem readLoop_eq (cloud : Bool) (ls : List (Line K)) (st : RState K) (h : ls.getLast? = some .next ∨ cloud = true ∨ (readAll cloud ls st).fin ≤ (readAll cloud ls st).beg) :
    readLoop cloud ls st = readAll cloud ls st := by
  rcases List.eq_nil_or_concat ls with rfl | ⟨ls', l, rfl⟩
  · rfl
  · rw [List.concat_eq_append] at *
    rw [readLoop_last, readAll_append]
    show _ = readBody cloud l false (readAll cloud ls' st)
    set s := readAll cloud ls' st with hs
    rcases h with h | h | h
    · simp at h; rw [h]; rfl
    · subst h
      unfold readBody; simp
    · rw [readAll_append] at h
      change (readBody cloud l false s).fin ≤ (readBody cloud l false s).beg at h
      cases l with
      | next => rfl
      | color c =>
        unfold readBody at h ⊢
        simp only [Bool.false_or, Bool.true_or] at h ⊢
        by_cases hb : s.beg < s.fin
        · cases cloud
          · simp [hb] at h; omega
          · simp
        · simp [hb]
      | blank =>
        unfold readBody at h ⊢
        simp only [Bool.false_or, Bool.true_or] at h ⊢
        by_cases hb : s.beg < s.fin
        · cases cloud
          · simp [hb] at h; omega
          · simp
        · simp [hb]
      | anno a =>
        unfold readBody at h ⊢
        simp only [Bool.false_or, Bool.true_or] at h ⊢
        by_cases hb : s.beg < s.fin
        · cases cloud
          · simp [hb] at h; omega
          · simp
        · simp [hb]
      | vert x y lay =>
        unfold readBody at h ⊢
        simp only [Bool.false_or, Bool.true_or] at h ⊢
        by_cases hb : s.beg < s.fin + 1
        · cases cloud
          · simp at h; omega
          · simp
        · simp [hb]

/-- What a polygon is after a round trip: closed exactly if its first vertex is also the last, which is then dropped. -/
def readBack (q : Poly K) : Poly K :=
  if 1 < q.verts.length ∧ q.verts.head? = q.verts.getLast? then { q with verts := q.verts.dropLast, closed := true }
  else { q with closed := false }

/-- The polygons that a point cloud is read as. -/
def singles (q : Poly K) : List (Poly K) := q.verts.map fun v => { q with verts := [v], closed := false }

/-- The polygons read so far. -/
structure Reading (st : RState K) (qs : List (Poly K)) (annos : List (Anno K)) : Prop where
  rep : Rep st.d qs
  beg : st.beg = (qs.flatMap (·.verts)).length
  fin : st.fin = st.beg
  annos : st.d.annos = annos

/-- A polygon is being read: `V` are its vertices so far. -/
structure Open (st : RState K) (qs : List (Poly K)) (annos : List (Anno K)) (V : List (Pt K)) (color layer : String) : Prop where
  xv : st.d.xv = (qs.flatMap (·.verts) ++ V).map Prod.fst
  yv : st.d.yv = (qs.flatMap (·.verts) ++ V).map Prod.snd
  numVerts : st.d.numVerts = qs.map (·.verts.length)
  numPolys : st.d.numPolys = qs.length
  total : st.d.totalNumVerts = (qs.map (·.verts.length)).sum
  closed : st.d.closed = qs.map (·.closed)
  colors : st.d.colors = qs.map (·.color)
  layers : st.d.layers = qs.map (·.layer)
  beg : st.beg = (qs.flatMap (·.verts)).length
  fin : st.fin = st.beg + V.length
  annos : st.d.annos = annos
  color : st.color = color
  layer : V ≠ [] → st.layer = layer

theorem open_of_reading (st : RState K) (qs : List (Poly K)) (an : List (Anno K)) (layer : String) (h : Reading st qs an) : Open st qs an [] st.color layer :=
  ⟨by simp [h.rep.xv], by simp [h.rep.yv], h.rep.numVerts, h.rep.numPolys, h.rep.total, h.rep.closed, h.rep.colors, h.rep.layers, h.beg, by simp [h.fin], h.annos, rfl,
    fun h => absurd rfl h⟩

theorem reading_of_open (st : RState K) (qs : List (Poly K)) (an : List (Anno K)) (color layer : String) (h : Open st qs an [] color layer) : Reading st qs an :=
  ⟨⟨by simpa using h.xv, by simpa using h.yv, h.numVerts, h.numPolys, h.total, h.closed, h.colors, h.layers⟩, h.beg, by simpa using h.fin, h.annos⟩

theorem read_vert (st : RState K) (qs : List (Poly K)) (an : List (Anno K)) (V : List (Pt K)) (color layer : String) (h : Open st qs an V color layer) (v : Pt K) :
    Open (readBody false (.vert v.1 v.2 layer) false st) qs an (V ++ [v]) color layer := by
  have e : readBody false (.vert v.1 v.2 layer) false st = ⟨{ st.d with xv := st.d.xv ++ [v.1], yv := st.d.yv ++ [v.2] }, st.beg, st.fin + 1,
    if st.fin + 1 = st.beg + 1 then layer else st.layer, st.color⟩ := rfl
  rw [e]
  refine ⟨?_, ?_, h.numVerts, h.numPolys, h.total, h.closed, h.colors, h.layers, h.beg, ?_, h.annos, h.color, ?_⟩
  · simp [h.xv]
  · simp [h.yv]
  · simp [h.fin]; omega
  · intro _
    show (if st.fin + 1 = st.beg + 1 then layer else st.layer) = layer
    by_cases hV : V = []
    · rw [if_pos (by rw [h.fin, hV]; simp)]
    · have := List.length_pos_iff.mpr hV
      rw [if_neg (by rw [h.fin]; omega), h.layer hV]

theorem read_anno (st : RState K) (qs : List (Poly K)) (an : List (Anno K)) (V : List (Pt K)) (color layer : String) (h : Open st qs an V color layer) (a : Anno K) :
    Open (readBody false (.anno a) false st) qs (an ++ [a]) V color layer := by
  have e : readBody false (.anno a) false st = { d := { st.d with annos := st.d.annos ++ [a] }, beg := st.beg, fin := st.fin, layer := st.layer, color := st.color } := rfl
  rw [e]
  exact ⟨h.xv, h.yv, h.numVerts, h.numPolys, h.total, h.closed, h.colors, h.layers, h.beg, h.fin, by simp [h.annos], h.color, h.layer⟩

theorem getD_first (A V : List (Pt K)) (hV : V ≠ []) (g : Pt K → K) : ((A ++ V).map g).getD A.length 0 = g (V.head hV) ∧
    ((A ++ V).map g).getD (A.length + V.length - 1) 0 = g (V.getLast hV) := by
  have hp := List.length_pos_iff.mpr hV
  constructor
  · cases V with
    | nil => exact absurd rfl hV
    | cons v V => simp
  · rw [List.getD_eq_getElem?_getD, List.getElem?_map, List.getElem?_append_right (by omega), show A.length + V.length - 1 - A.length = V.length - 1 by omega,
      ← List.getLast?_eq_getElem?, List.getLast?_eq_getLast_of_ne_nil hV]
    rfl

/-- Closing a polygon. -/
theorem read_close (st : RState K) (qs : List (Poly K)) (an : List (Anno K)) (V : List (Pt K)) (color layer : String)
    (h : Open st qs an V color layer) (hV : V ≠ []) (cl : Bool) :
    let q : Poly K := ⟨V, cl, color, layer⟩
    Reading (readBody false .next false st) (qs ++ [readBack q]) an ∧ (readBody false .next false st).color = color := by
  intro q
  have hp := List.length_pos_iff.mpr hV
  obtain ⟨x1, x2⟩ := getD_first (qs.flatMap (·.verts)) V hV Prod.fst
  obtain ⟨y1, y2⟩ := getD_first (qs.flatMap (·.verts)) V hV Prod.snd
  rw [← h.xv, ← h.beg] at x1 x2
  rw [← h.yv, ← h.beg] at y1 y2
  rw [← h.fin] at x2 y2
  have hfin : st.beg < st.fin := by rw [h.fin]; omega
  have hlen : (qs.flatMap (·.verts)).length = (qs.map (·.verts.length)).sum := length_flat qs
  unfold readBody
  simp only [Bool.false_or, Bool.or_false, Bool.true_and, decide_eq_true_eq]
  rw [if_pos hfin, x1, x2, y1, y2]
  have hiff : (st.beg < st.fin - 1 ∧ (V.head hV).1 = (V.getLast hV).1 ∧ (V.head hV).2 = (V.getLast hV).2) ↔ (1 < V.length ∧ V.head? = V.getLast?) := by
    rw [List.head?_eq_some_head hV, List.getLast?_eq_some_getLast hV, Option.some.injEq, Prod.ext_iff, h.fin]
    constructor
    · rintro ⟨a, b⟩; exact ⟨by omega, b⟩
    · rintro ⟨a, b⟩; exact ⟨by omega, b⟩
  have hrb : readBack q = if 1 < V.length ∧ V.head? = V.getLast? then ⟨V.dropLast, true, color, layer⟩ else ⟨V, false, color, layer⟩ := rfl
  by_cases hc : 1 < V.length ∧ V.head? = V.getLast?
  · rw [if_pos (hiff.mpr hc), hrb, if_pos hc]
    have hdl : V.dropLast.length = V.length - 1 := List.length_dropLast
    have htake : ∀ g : Pt K → K, ((qs.flatMap (·.verts) ++ V).map g).take (st.fin - 1) = (qs.flatMap (·.verts) ++ V.dropLast).map g := by
      intro g
      rw [← List.map_take, h.fin, h.beg, show (qs.flatMap (·.verts)).length + V.length - 1 = (qs.flatMap (·.verts)).length + (V.length - 1) by omega,
        List.take_length_add_append, List.dropLast_eq_take]
    refine ⟨⟨⟨?_, ?_, ?_, ?_, ?_, ?_, ?_, ?_⟩, ?_, rfl, h.annos⟩, h.color⟩
    · simp only [h.xv, htake]; simp
    · simp only [h.yv, htake]; simp
    · simp only [h.numVerts, h.fin, List.map_append, List.map_cons, List.map_nil, hdl]
      congr 2; omega
    · simp [h.numPolys]
    · simp only [List.map_append, List.map_cons, List.map_nil, List.sum_append, List.sum_cons, List.sum_nil, hdl, h.fin, h.beg, hlen]; omega
    · simp [h.closed]
    · simp [h.colors, h.color]
    · simp [h.layers, h.layer hV]
    · simp only [List.flatMap_append, List.flatMap_singleton, List.length_append, hdl, h.fin, h.beg]; omega
  · rw [if_neg (fun c => hc (hiff.mp c)), hrb, if_neg hc]
    refine ⟨⟨⟨?_, ?_, ?_, ?_, ?_, ?_, ?_, ?_⟩, ?_, rfl, h.annos⟩, h.color⟩
    · simp only [h.xv]; simp
    · simp only [h.yv]; simp
    · simp only [h.numVerts, h.fin, List.map_append, List.map_cons, List.map_nil]
      congr 2; omega
    · simp [h.numPolys]
    · simp only [List.map_append, List.map_cons, List.map_nil, List.sum_append, List.sum_cons, List.sum_nil, h.fin, h.beg, hlen]; omega
    · simp [h.closed]
    · simp [h.colors, h.color]
    · simp [h.layers, h.layer hV]
    · simp only [List.flatMap_append, List.flatMap_singleton, List.length_append, h.fin, h.beg]

/-- Reading the lines of the vertices of a polygon. -/
theorem read_verts (d : DPoly K) (ps : List (Poly K)) (h : Rep d ps) (as rs : List (Poly K)) (q : Poly K) (e : ps = as ++ q :: rs) (layer : String)
    (ac : Nat) (hac : ac ≤ d.annos.length) (out : List (Line K)) (st0 st : RState K) (qs : List (Poly K)) (color : String)
    (hst : readAll false out st0 = st) (ho : Open st qs (d.annos.take ac) [] color layer) :
    ∀ m, m ≤ q.verts.length →
    let w := writeVerts d layer (as.flatMap (·.verts)).length m ac out
    w.1 ≤ d.annos.length ∧ Open (readAll false w.2 st0) qs (d.annos.take w.1) (q.verts.take m) color layer := by
  intro m
  induction m with
  | zero => intro _; exact ⟨hac, by simpa [writeVerts, forRange, hst] using ho⟩
  | succ m ih =>
    intro hm
    obtain ⟨i1, i2⟩ := ih (by omega)
    obtain ⟨e1, e2⟩ := getD_vert d ps h as rs q e m (by omega)
    have hget : q.verts.getD m (0, 0) = q.verts[m] := by simp [List.getD_eq_getElem?_getD, show m < q.verts.length by omega]
    rw [hget] at e1 e2
    have hw : writeVerts d layer (as.flatMap (·.verts)).length (m + 1) ac out =
      (let w := writeVerts d layer (as.flatMap (·.verts)).length m ac out
       if w.1 < d.annos.length then (w.1 + 1, w.2 ++ [.vert q.verts[m].1 q.verts[m].2 layer] ++ [.anno (d.annos.getD w.1 ⟨0, 0, ""⟩)])
       else (w.1, w.2 ++ [.vert q.verts[m].1 q.verts[m].2 layer])) := by
      unfold writeVerts
      rw [forRange_succ, e1, e2]
    rw [hw]
    set w := writeVerts d layer (as.flatMap (·.verts)).length m ac out with hwd
    have r1 := read_vert _ _ _ _ _ _ i2 q.verts[m]
    rw [← List.take_succ_eq_append_getElem (by omega)] at r1
    simp only []
    by_cases hc : w.1 < d.annos.length
    · rw [if_pos hc]
      refine ⟨hc, ?_⟩
      have r2 := read_anno _ _ _ _ _ _ r1 (d.annos.getD w.1 ⟨0, 0, ""⟩)
      have ha : d.annos.take w.1 ++ [d.annos.getD w.1 ⟨0, 0, ""⟩] = d.annos.take (w.1 + 1) := by
        rw [List.take_succ_eq_append_getElem hc]; simp [List.getD_eq_getElem?_getD, hc]
      rw [ha] at r2
      rw [readAll_append, readAll_append]
      exact r2
    · rw [if_neg hc]
      refine ⟨i1, ?_⟩
      rw [readAll_append]
      exact r1

theorem read_color (st : RState K) (qs : List (Poly K)) (an : List (Anno K)) (h : Reading st qs an) (c : String) :
    Reading (readBody false (.color c) false st) qs an ∧ (readBody false (.color c) false st).color = c := by
  have e : readBody false (.color c) false st = { d := st.d, beg := st.beg, fin := st.fin, layer := st.layer, color := c } := rfl
  rw [e]
  exact ⟨⟨h.rep, h.beg, h.fin, h.annos⟩, rfl⟩

/-- What is known after `m` polygons have been written. -/
theorem write_loop (dc : String) (d : DPoly K) (ps : List (Poly K)) (h : Rep d ps) (hcl : d.cloud = false) (hne : ∀ q ∈ ps, q.verts ≠ []) (st0 : RState K)
    (h0 : Reading st0 [] []) : ∀ m, m ≤ ps.length →
    let w := forRange m (writeBody false d) ⟨0, 0, dc, dc, []⟩
    (w.start + (if m = 0 then 0 else (ps.getD (m - 1) ⟨[], false, "", ""⟩).verts.length) = ((ps.take m).flatMap (·.verts)).length) ∧ w.color = w.prevColor
    ∧ w.annoCount ≤ d.annos.length ∧ Reading (readAll false w.out st0) ((ps.take m).map readBack) (d.annos.take w.annoCount)
    ∧ (m ≠ 0 → (readAll false w.out st0).color = w.prevColor) ∧ (m ≠ 0 → w.out.getLast? = some .next) := by
  intro m
  induction m with
  | zero => intro _; exact ⟨by simp [forRange], rfl, Nat.zero_le _, by simpa [forRange, readAll] using h0, fun h => absurd rfl h, fun h => absurd rfl h⟩
  | succ m ih =>
    intro hm
    have hm' : m < ps.length := by omega
    obtain ⟨i1, i2, i3, i4, i5, -⟩ := ih (by omega)
    simp only [forRange_succ]
    set w := forRange m (writeBody false d) ⟨0, 0, dc, dc, []⟩ with hw
    have hn := numVerts_getD d ps h m hm'
    have hpos : 0 < ps[m].verts.length := List.length_pos_iff.mpr (hne _ (List.getElem_mem hm'))
    have hcol : d.colors.getD m "" = ps[m].color := by rw [h.colors]; simp [hm']
    have hlay : d.layers.getD m "" = ps[m].layer := by rw [h.layers]; simp [hm']
    have hc1 : m < d.colors.length := by rw [h.colors]; simpa using hm'
    have hl1 : m < d.layers.length := by rw [h.layers]; simpa using hm'
    have hstart : (if m > 0 then w.start + d.numVerts.getD (m - 1) 0 else w.start) = ((ps.take m).flatMap (·.verts)).length := by
      rw [← i1]
      by_cases hm0 : m = 0
      · subst hm0; simp
      · rw [if_pos (by omega), if_neg hm0, numVerts_getD d ps h (m - 1) (by omega)]
        have : ps.getD (m - 1) ⟨[], false, "", ""⟩ = ps[m - 1] := by simp [List.getD_eq_getElem?_getD, show m - 1 < ps.length by omega]
        rw [this]
    -- the color line
    set out1 := if ps[m].color ≠ w.prevColor ∨ m = 0 then w.out ++ [Line.color ps[m].color] else w.out with hout1
    have hrd : Reading (readAll false out1 st0) ((ps.take m).map readBack) (d.annos.take w.annoCount) ∧ (readAll false out1 st0).color = ps[m].color := by
      rw [hout1]
      by_cases hc : ps[m].color ≠ w.prevColor ∨ m = 0
      · rw [if_pos hc, readAll_append]
        exact read_color _ _ _ i4 _
      · rw [if_neg hc]
        rw [not_or, not_not] at hc
        exact ⟨i4, by rw [i5 hc.2, hc.1]⟩
    have hop := open_of_reading _ _ _ ps[m].layer hrd.1
    rw [hrd.2] at hop
    obtain ⟨v1, v2⟩ := read_verts d ps h (ps.take m) (ps.drop (m + 1)) ps[m] (split_at ps m hm') ps[m].layer w.annoCount i3 out1 st0 _ _ _ rfl hop _ le_rfl
    rw [List.take_length] at v2
    obtain ⟨c1, c2⟩ := read_close _ _ _ _ _ _ v2 (hne _ (List.getElem_mem hm')) ps[m].closed
    have hbody : writeBody false d m w = ⟨((ps.take m).flatMap (·.verts)).length,
        (writeVerts d ps[m].layer ((ps.take m).flatMap (·.verts)).length ps[m].verts.length w.annoCount out1).1,
        ps[m].color, ps[m].color,
        (writeVerts d ps[m].layer ((ps.take m).flatMap (·.verts)).length ps[m].verts.length w.annoCount out1).2 ++ [.next]⟩ := by
      unfold writeBody
      rw [hn, if_neg (by omega)]
      simp only [hstart, hcol, hlay, if_pos hc1, if_pos hl1, hcl]
      rfl
    rw [hbody]
    refine ⟨?_, rfl, v1, ?_, ?_, ?_⟩
    · simp only [if_neg (Nat.succ_ne_zero m), Nat.add_sub_cancel]
      have : ps.getD m ⟨[], false, "", ""⟩ = ps[m] := by simp [List.getD_eq_getElem?_getD, hm']
      rw [this, List.take_succ_eq_append_getElem hm', List.flatMap_append, List.flatMap_singleton, List.length_append]
    · simp only [readAll_append]
      rw [List.take_succ_eq_append_getElem hm', List.map_append]
      exact c1
    · intro _
      simp only [readAll_append]
      exact c2
    · intro _; simp

theorem read_annos (qs : List (Poly K)) (as : List (Anno K)) : ∀ (an : List (Anno K)) (st : RState K), Reading st qs an →
    Reading (readAll false (as.map .anno) st) qs (an ++ as) := by
  induction as with
  | nil => intro an st h; simpa [readAll] using h
  | cons a as ih =>
    intro an st h
    have := reading_of_open _ _ _ _ _ (read_anno st qs an [] st.color "" (open_of_reading st qs an "" h) a)
    have := ih _ _ this
    simpa [readAll] using this

/-- **A round trip through a file.**  Polygons, none of them empty, written with the separator `NEXT` are read back in order with
their vertices, colors, layers and annotations.  Whether a polygon is closed is read from its vertices. -/
theorem file_roundtrip (dc : String) (d : DPoly K) (ps : List (Poly K)) (h : Rep d ps) (hcl : d.cloud = false) (hne : ∀ q ∈ ps, q.verts ≠ []) :
    Rep (readPoly false (writePoly dc false d)) (ps.map readBack) ∧ (readPoly false (writePoly dc false d)).annos = d.annos := by
  have h0 : Reading (⟨{ (reset : DPoly K) with cloud := false }, 0, 0, "", "yellow"⟩ : RState K) [] [] := by
    refine ⟨?_, rfl, rfl, rfl⟩; constructor <;> rfl
  obtain ⟨i1, i2, i3, i4, i5, i6⟩ := write_loop dc d ps h hcl hne _ h0 ps.length le_rfl
  set w := forRange ps.length (writeBody false d) ⟨0, 0, dc, dc, []⟩ with hw
  rw [List.take_length] at i4
  have hlines : writePoly dc false d = w.out ++ (d.annos.drop w.annoCount).map .anno := by
    unfold writePoly; rw [h.numPolys]
  have hr := read_annos _ (d.annos.drop w.annoCount) _ _ i4
  rw [List.take_append_drop] at hr
  have hread : readPoly false (writePoly dc false d) = (readAll false (writePoly dc false d) ⟨{ reset with cloud := false }, 0, 0, "", "yellow"⟩).d := by
    unfold readPoly
    rw [readLoop_eq]
    right; right
    rw [hlines, readAll_append, hr.fin]
  rw [hread, hlines, readAll_append]
  exact ⟨hr.rep, hr.annos⟩

/-! ### Point clouds -/

theorem cloud_vert (st : RState K) (qs : List (Poly K)) (an : List (Anno K)) (h : Reading st qs an) (v : Pt K) (layer : String) :
    Reading (readBody true (.vert v.1 v.2 layer) false st) (qs ++ [⟨[v], false, st.color, layer⟩]) an
      ∧ (readBody true (.vert v.1 v.2 layer) false st).color = st.color := by
  have hf := h.fin
  have hlen : (qs.flatMap (·.verts)).length = (qs.map (·.verts.length)).sum := length_flat qs
  have e : readBody true (.vert v.1 v.2 layer) false st = ⟨{ st.d with
      xv := st.d.xv ++ [v.1]
      yv := st.d.yv ++ [v.2]
      closed := st.d.closed ++ [false]
      layers := st.d.layers ++ [layer]
      colors := st.d.colors ++ [st.color]
      numPolys := st.d.numPolys + 1
      numVerts := st.d.numVerts ++ [1]
      totalNumVerts := st.fin + 1 }, st.fin + 1, st.fin + 1, layer, st.color⟩ := by
    unfold readBody
    simp only [Bool.false_or, Bool.or_true, Bool.true_and, decide_eq_true_eq]
    rw [if_pos (by omega), if_neg (by omega)]
    simp [hf]
  rw [e]
  refine ⟨⟨⟨?_, ?_, ?_, ?_, ?_, ?_, ?_, ?_⟩, ?_, rfl, h.annos⟩, rfl⟩
  · simp [h.rep.xv]
  · simp [h.rep.yv]
  · simp [h.rep.numVerts]
  · simp [h.rep.numPolys]
  · simp only [hf, h.beg, hlen]; simp
  · simp [h.rep.closed]
  · simp [h.rep.colors]
  · simp [h.rep.layers]
  · simp only [hf, h.beg, List.flatMap_append, List.flatMap_singleton, List.length_append]; rfl

theorem cloud_anno (st : RState K) (qs : List (Poly K)) (an : List (Anno K)) (h : Reading st qs an) (a : Anno K) :
    Reading (readBody true (.anno a) false st) qs (an ++ [a]) ∧ (readBody true (.anno a) false st).color = st.color := by
  have hf := h.fin
  have e : readBody true (.anno a) false st = ⟨{ st.d with annos := st.d.annos ++ [a] }, st.beg, st.fin, st.layer, st.color⟩ := by
    unfold readBody
    simp only [Bool.false_or, Bool.true_and, decide_eq_true_eq]
    rw [if_neg (by omega)]
  rw [e]
  exact ⟨⟨⟨h.rep.xv, h.rep.yv, h.rep.numVerts, h.rep.numPolys, h.rep.total, h.rep.closed, h.rep.colors, h.rep.layers⟩, h.beg, h.fin, by simp [h.annos]⟩, rfl⟩

theorem cloud_color (st : RState K) (qs : List (Poly K)) (an : List (Anno K)) (h : Reading st qs an) (c : String) :
    Reading (readBody true (.color c) false st) qs an ∧ (readBody true (.color c) false st).color = c := by
  have hf := h.fin
  have e : readBody true (.color c) false st = ⟨st.d, st.beg, st.fin, st.layer, c⟩ := by
    unfold readBody
    simp only [Bool.false_or, Bool.true_and, decide_eq_true_eq]
    rw [if_neg (by omega)]
  rw [e]
  exact ⟨⟨h.rep, h.beg, h.fin, h.annos⟩, rfl⟩

theorem cloud_annos (qs : List (Poly K)) (as : List (Anno K)) : ∀ (an : List (Anno K)) (st : RState K), Reading st qs an →
    Reading (readAll true (as.map .anno) st) qs (an ++ as) := by
  induction as with
  | nil => intro an st h; simpa [readAll] using h
  | cons a as ih =>
    intro an st h
    have := ih _ _ (cloud_anno st qs an h a).1
    simpa [readAll] using this

theorem cloud_verts (d : DPoly K) (ps : List (Poly K)) (h : Rep d ps) (as rs : List (Poly K)) (q : Poly K) (e : ps = as ++ q :: rs)
    (ac : Nat) (hac : ac ≤ d.annos.length) (out : List (Line K)) (st0 : RState K) (qs : List (Poly K))
    (ho : Reading (readAll true out st0) qs (d.annos.take ac)) (hc : (readAll true out st0).color = q.color) :
    ∀ m, m ≤ q.verts.length →
    let w := writeVerts d q.layer (as.flatMap (·.verts)).length m ac out
    w.1 ≤ d.annos.length ∧ Reading (readAll true w.2 st0) (qs ++ (q.verts.take m).map fun v => { q with verts := [v], closed := false }) (d.annos.take w.1)
      ∧ (readAll true w.2 st0).color = q.color := by
  intro m
  induction m with
  | zero => intro _; exact ⟨hac, by simpa [writeVerts, forRange] using ho, by simpa [writeVerts, forRange] using hc⟩
  | succ m ih =>
    intro hm
    obtain ⟨i1, i2, i3⟩ := ih (by omega)
    obtain ⟨e1, e2⟩ := getD_vert d ps h as rs q e m (by omega)
    have hget : q.verts.getD m (0, 0) = q.verts[m] := by simp [List.getD_eq_getElem?_getD, show m < q.verts.length by omega]
    rw [hget] at e1 e2
    have hw : writeVerts d q.layer (as.flatMap (·.verts)).length (m + 1) ac out =
      (let w := writeVerts d q.layer (as.flatMap (·.verts)).length m ac out
       if w.1 < d.annos.length then (w.1 + 1, w.2 ++ [.vert q.verts[m].1 q.verts[m].2 q.layer] ++ [.anno (d.annos.getD w.1 ⟨0, 0, ""⟩)])
       else (w.1, w.2 ++ [.vert q.verts[m].1 q.verts[m].2 q.layer])) := by
      unfold writeVerts
      rw [forRange_succ, e1, e2]
    rw [hw]
    set w := writeVerts d q.layer (as.flatMap (·.verts)).length m ac out with hwd
    obtain ⟨r1, r2⟩ := cloud_vert _ _ _ i2 q.verts[m] q.layer
    rw [i3] at r1 r2
    have hq : qs ++ (q.verts.take m).map (fun v => ({ q with verts := [v], closed := false } : Poly K)) ++ [⟨[q.verts[m]], false, q.color, q.layer⟩]
        = qs ++ (q.verts.take (m + 1)).map fun v => { q with verts := [v], closed := false } := by
      rw [List.take_succ_eq_append_getElem (show m < q.verts.length by omega), List.map_append, List.append_assoc]; rfl
    rw [hq] at r1
    simp only []
    by_cases hc : w.1 < d.annos.length
    · rw [if_pos hc]
      obtain ⟨s1, s2⟩ := cloud_anno _ _ _ r1 (d.annos.getD w.1 ⟨0, 0, ""⟩)
      have ha : d.annos.take w.1 ++ [d.annos.getD w.1 ⟨0, 0, ""⟩] = d.annos.take (w.1 + 1) := by
        rw [List.take_succ_eq_append_getElem hc]; simp [List.getD_eq_getElem?_getD, hc]
      rw [ha] at s1
      rw [readAll_append, readAll_append]
      exact ⟨hc, s1, s2.trans r2⟩
    · rw [if_neg hc, readAll_append]
      exact ⟨i1, r1, r2⟩

theorem cloud_loop (dc : String) (el : Bool) (d : DPoly K) (ps : List (Poly K)) (h : Rep d ps) (hcl : d.cloud = true) (hne : ∀ q ∈ ps, q.verts ≠ []) (st0 : RState K)
    (h0 : Reading st0 [] []) : ∀ m, m ≤ ps.length →
    let w := forRange m (writeBody el d) ⟨0, 0, dc, dc, []⟩
    (w.start + (if m = 0 then 0 else (ps.getD (m - 1) ⟨[], false, "", ""⟩).verts.length) = ((ps.take m).flatMap (·.verts)).length)
    ∧ w.annoCount ≤ d.annos.length ∧ Reading (readAll true w.out st0) ((ps.take m).flatMap singles) (d.annos.take w.annoCount)
    ∧ (m ≠ 0 → (readAll true w.out st0).color = w.prevColor) := by
  intro m
  induction m with
  | zero => intro _; exact ⟨by simp [forRange], Nat.zero_le _, by simpa [forRange, readAll] using h0, fun h => absurd rfl h⟩
  | succ m ih =>
    intro hm
    have hm' : m < ps.length := by omega
    obtain ⟨i1, i3, i4, i5⟩ := ih (by omega)
    simp only [forRange_succ]
    set w := forRange m (writeBody el d) ⟨0, 0, dc, dc, []⟩ with hw
    have hn := numVerts_getD d ps h m hm'
    have hpos : 0 < ps[m].verts.length := List.length_pos_iff.mpr (hne _ (List.getElem_mem hm'))
    have hcol : d.colors.getD m "" = ps[m].color := by rw [h.colors]; simp [hm']
    have hlay : d.layers.getD m "" = ps[m].layer := by rw [h.layers]; simp [hm']
    have hc1 : m < d.colors.length := by rw [h.colors]; simpa using hm'
    have hl1 : m < d.layers.length := by rw [h.layers]; simpa using hm'
    have hstart : (if m > 0 then w.start + d.numVerts.getD (m - 1) 0 else w.start) = ((ps.take m).flatMap (·.verts)).length := by
      rw [← i1]
      by_cases hm0 : m = 0
      · subst hm0; simp
      · rw [if_pos (by omega), if_neg hm0, numVerts_getD d ps h (m - 1) (by omega)]
        have : ps.getD (m - 1) ⟨[], false, "", ""⟩ = ps[m - 1] := by simp [List.getD_eq_getElem?_getD, show m - 1 < ps.length by omega]
        rw [this]
    set out1 := if ps[m].color ≠ w.prevColor ∨ m = 0 then w.out ++ [Line.color ps[m].color] else w.out with hout1
    have hrd : Reading (readAll true out1 st0) ((ps.take m).flatMap singles) (d.annos.take w.annoCount) ∧ (readAll true out1 st0).color = ps[m].color := by
      rw [hout1]
      by_cases hc : ps[m].color ≠ w.prevColor ∨ m = 0
      · rw [if_pos hc, readAll_append]
        exact cloud_color _ _ _ i4 _
      · rw [if_neg hc]
        rw [not_or, not_not] at hc
        exact ⟨i4, by rw [i5 hc.2, hc.1]⟩
    obtain ⟨v1, v2, v3⟩ := cloud_verts d ps h (ps.take m) (ps.drop (m + 1)) ps[m] (split_at ps m hm') w.annoCount i3 out1 st0 _ hrd.1 hrd.2 _ le_rfl
    rw [List.take_length] at v2
    have hbody : writeBody el d m w = ⟨((ps.take m).flatMap (·.verts)).length,
        (writeVerts d ps[m].layer ((ps.take m).flatMap (·.verts)).length ps[m].verts.length w.annoCount out1).1,
        ps[m].color, ps[m].color,
        (writeVerts d ps[m].layer ((ps.take m).flatMap (·.verts)).length ps[m].verts.length w.annoCount out1).2⟩ := by
      unfold writeBody
      rw [hn, if_neg (by omega)]
      simp only [hstart, hcol, hlay, if_pos hc1, if_pos hl1, hcl]
      rfl
    rw [hbody]
    refine ⟨?_, v1, ?_, fun _ => v3⟩
    · simp only [if_neg (Nat.succ_ne_zero m), Nat.add_sub_cancel]
      have : ps.getD m ⟨[], false, "", ""⟩ = ps[m] := by simp [List.getD_eq_getElem?_getD, hm']
      rw [this, List.take_succ_eq_append_getElem hm', List.flatMap_append, List.flatMap_singleton, List.length_append]
    · rw [List.take_succ_eq_append_getElem hm', List.flatMap_append, List.flatMap_singleton]
      exact v2

/-- **A round trip of a point cloud.**  Every vertex comes back as a polygon of its own, with color and layer. -/
theorem cloud_roundtrip (dc : String) (el : Bool) (d : DPoly K) (ps : List (Poly K)) (h : Rep d ps) (hcl : d.cloud = true) (hne : ∀ q ∈ ps, q.verts ≠ []) :
    Rep (readPoly true (writePoly dc el d)) (ps.flatMap singles) ∧ (readPoly true (writePoly dc el d)).annos = d.annos := by
  have h0 : Reading (⟨{ (reset : DPoly K) with cloud := true }, 0, 0, "", "yellow"⟩ : RState K) [] [] := by
    refine ⟨?_, rfl, rfl, rfl⟩; constructor <;> rfl
  obtain ⟨-, i3, i4, -⟩ := cloud_loop dc el d ps h hcl hne _ h0 ps.length le_rfl
  set w := forRange ps.length (writeBody el d) ⟨0, 0, dc, dc, []⟩ with hw
  rw [List.take_length] at i4
  have hlines : writePoly dc el d = w.out ++ (d.annos.drop w.annoCount).map .anno := by
    unfold writePoly; rw [h.numPolys]
  have hr := cloud_annos _ (d.annos.drop w.annoCount) _ _ i4
  rw [List.take_append_drop] at hr
  have hread : readPoly true (writePoly dc el d) = (readAll true (writePoly dc el d) ⟨{ reset with cloud := true }, 0, 0, "", "yellow"⟩).d := by
    unfold readPoly
    rw [readLoop_eq _ _ _ (Or.inr (Or.inl rfl))]
  rw [hread, hlines, readAll_append]
  exact ⟨hr.rep, hr.annos⟩

/-! ### What is lost -/

/-- **A closed polygon comes back open**, if its first vertex is not the last one. -/
theorem file_opens (dc : String) (d : DPoly K) (q : Poly K) (h : Rep d [q]) (hcl : d.cloud = false) (hne : q.verts ≠ []) (hd : q.verts.head? ≠ q.verts.getLast?) :
    Rep (readPoly false (writePoly dc false d)) [{ q with closed := false }] := by
  have := (file_roundtrip dc d [q] h hcl (by simpa using hne)).1
  simpa [readBack, hd] using this

/-- A triangle and two points. -/
def exW : DPoly ℚ := ⟨false, [0, 4, 4, 7, 8, 9], [0, 0, 4, 7, 8, 9], [3, 1, 2], 3, 6, [true, false, false], ["red", "red", "blue"], ["", "1:2", ""], [⟨1, 1, "a"⟩], [], [], []⟩
def exWP : List (Poly ℚ) := [⟨[(0, 0), (4, 0), (4, 4)], true, "red", ""⟩, ⟨[(7, 7)], false, "red", "1:2"⟩, ⟨[(8, 8), (9, 9)], false, "blue", ""⟩]
theorem exW_rep : Rep exW exWP := by constructor <;> rfl

example : writePoly "green" false exW = [.color "red", .vert 0 0 "", .anno ⟨1, 1, "a"⟩, .vert 4 0 "", .vert 4 4 "", .next, .vert 7 7 "1:2", .next, .color "blue",
  .vert 8 8 "", .vert 9 9 "", .next] := by decide +kernel
example : (readPoly false (writePoly "green" false exW)).xv = exW.xv ∧ (readPoly false (writePoly "green" false exW)).closed = [false, false, false] := by decide +kernel

/-- **Polygons after an empty one are written with the wrong vertices.**  The point `(7, 7)` is erased, which leaves an empty
polygon; the third polygon is then written with vertices of the first. -/
theorem file_after_empty : Rep (eraseVertex 1 0 exW) [⟨[(0, 0), (4, 0), (4, 4)], true, "red", ""⟩, ⟨[], false, "red", "1:2"⟩, ⟨[(8, 8), (9, 9)], false, "blue", ""⟩]
    ∧ Rep (readPoly false (writePoly "green" false (eraseVertex 1 0 exW))) [⟨[(0, 0), (4, 0), (4, 4)], false, "red", ""⟩, ⟨[(0, 0), (4, 0)], false, "blue", ""⟩] := by
  refine ⟨?_, ?_⟩ <;> constructor <;> decide +kernel

/-- **With empty lines as separators all polygons are read as one.** -/
theorem file_blank : Rep (readPoly false (writePoly "green" true exW)) [⟨[(0, 0), (4, 0), (4, 4), (7, 7), (8, 8), (9, 9)], false, "blue", ""⟩] := by
  constructor <;> decide +kernel

/-- **A second round trip can drop a further vertex.** -/
theorem file_not_idempotent : ∃ q : Poly ℚ, readBack (readBack q) ≠ readBack q ∧ q.closed = (readBack q).closed :=
  ⟨⟨[(0, 0), (1, 0), (0, 0), (0, 0)], true, "", ""⟩, by decide +kernel, by decide +kernel⟩

end Verif.Geom.Polys
