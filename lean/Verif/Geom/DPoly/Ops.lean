import Mathlib.Data.List.Lemmas
import Verif.Geom.DPoly.Basic

/-
C124: the operations of `dPoly` on its flat vectors are those on a list of polygons.
-/

namespace Verif.Geom.Polys

open Verif.Geom.Poly

variable {K : Type}

/-- A `dPoly` stands for one list of polygons only. -/
theorem rep_unique (d : DPoly K) (ps qs : List (Poly K)) (h : Rep d ps) (h' : Rep d qs) : ps = qs := by
  have hx : (ps.flatMap (·.verts)).map Prod.fst = (qs.flatMap (·.verts)).map Prod.fst := h.xv.symm.trans h'.xv
  have hy : (ps.flatMap (·.verts)).map Prod.snd = (qs.flatMap (·.verts)).map Prod.snd := h.yv.symm.trans h'.yv
  have hn : ps.map (·.verts.length) = qs.map (·.verts.length) := h.numVerts.symm.trans h'.numVerts
  have hc : ps.map (·.closed) = qs.map (·.closed) := h.closed.symm.trans h'.closed
  have hk : ps.map (·.color) = qs.map (·.color) := h.colors.symm.trans h'.colors
  have hl : ps.map (·.layer) = qs.map (·.layer) := h.layers.symm.trans h'.layers
  clear h h'
  induction ps generalizing qs with
  | nil => cases qs with
    | nil => rfl
    | cons q qs => simp at hn
  | cons p ps ih => cases qs with
    | nil => simp at hn
    | cons q qs =>
      simp only [List.map_cons, List.cons.injEq] at hn hc hk hl
      simp only [List.flatMap_cons, List.map_append] at hx hy
      have e1 := List.append_inj hx (by simp [hn.1])
      have e2 := List.append_inj hy (by simp [hn.1])
      have hv : p.verts = q.verts := by
        apply List.ext_getElem?; intro i
        have a1 := congrArg (·[i]?) e1.1
        have a2 := congrArg (·[i]?) e2.1
        simp only [List.getElem?_map] at a1 a2
        cases h1 : p.verts[i]? <;> cases h2 : q.verts[i]? <;> simp_all [Prod.ext_iff]
      rw [ih qs e1.2 e2.2 hn.2 hc.2 hk.2 hl.2]
      congr 1
      cases p; cases q; simp_all

theorem reset_rep : Rep (reset : DPoly K) [] := by constructor <;> rfl

section field
variable [Field K] [LinearOrder K]

theorem push_loop (n : Nat) (xs ys : List K) (V L : List (Pt K)) (hn : V.length = n) (hx : xs.take n = V.map Prod.fst)
    (hy : ys.take n = V.map Prod.snd) :
    forRange n (fun s (st : List K × List K) => (st.1 ++ [xs.getD s 0], st.2 ++ [ys.getD s 0])) (sp L) = sp (L ++ V) := by
  subst hn
  have key : ∀ m, m ≤ V.length →
      forRange m (fun s (st : List K × List K) => (st.1 ++ [xs.getD s 0], st.2 ++ [ys.getD s 0])) (sp L) = sp (L ++ V.take m) := by
    intro m
    induction m with
    | zero => intro _; simp [forRange]
    | succ m ih =>
      intro hm
      rw [forRange_succ, ih (by omega)]
      have a1 := congrArg (·[m]?) hx
      have a2 := congrArg (·[m]?) hy
      simp only [List.getElem?_map, List.getElem?_take, if_pos (show m < V.length by omega), List.getElem?_eq_getElem (show m < V.length by omega)] at a1 a2
      rw [List.take_succ_eq_append_getElem (by omega)]
      have b1 : xs.getD m 0 = V[m].1 := by rw [List.getD_eq_getElem?_getD, a1]; rfl
      have b2 : ys.getD m 0 = V[m].2 := by rw [List.getD_eq_getElem?_getD, a2]; rfl
      simp only [b1, b2, sp, List.map_append, List.map_cons, List.map_nil, List.append_assoc]
  have := key V.length le_rfl
  simpa using this

/-- **Appending a polygon** puts it at the end; a polygon without vertices is left out. -/
theorem appendPolygon_rep (d : DPoly K) (ps : List (Poly K)) (h : Rep d ps) (n : Nat) (xs ys : List K) (q : Poly K)
    (hn : q.verts.length = n) (hx : xs.take n = q.verts.map Prod.fst) (hy : ys.take n = q.verts.map Prod.snd) :
    Rep (appendPolygon d n xs ys q.closed q.color q.layer) (if q.verts = [] then ps else ps ++ [q]) ∧
    (appendPolygon d n xs ys q.closed q.color q.layer).annos = d.annos := by
  unfold appendPolygon
  by_cases h0 : n = 0
  · have hv : q.verts = [] := List.length_eq_zero_iff.mp (by omega)
    rw [if_pos h0, if_pos hv]; exact ⟨h, rfl⟩
  · have hv : q.verts ≠ [] := by intro h; rw [h] at hn; simp at hn; omega
    rw [if_neg h0, if_neg hv]
    have e : (d.xv, d.yv) = sp (ps.flatMap (·.verts)) := by rw [h.xv, h.yv]; rfl
    simp only [e, push_loop n xs ys q.verts _ hn hx hy]
    refine ⟨⟨?_, ?_, ?_, ?_, ?_, ?_, ?_, ?_⟩, trivial⟩
    · simp [sp]
    · simp [sp]
    · simp [h.numVerts, hn]
    · simp [h.numPolys]
    · simp [h.total, hn]
    · simp [h.closed]
    · simp [h.colors]
    · simp [h.layers]

/-- The polygons with vertices. -/
def nonempty (ps : List (Poly K)) : List (Poly K) := ps.filter fun p => !p.verts.isEmpty

theorem appendPolygons_loop (e : DPoly K) (qs : List (Poly K)) (he : Rep e qs) : ∀ (rs as : List (Poly K)) (d : DPoly K) (ps : List (Poly K)),
    qs = as ++ rs → Rep d ps →
    let r := polyLoop (fun p s n (d : DPoly K) =>
      appendPolygon d n (e.xv.drop s) (e.yv.drop s) (e.closed.getD p false) (e.colors.getD p "") (e.layers.getD p ""))
      as.length (as.flatMap (·.verts)).length (rs.map (·.verts.length)) d
    Rep r (ps ++ nonempty rs) ∧ r.annos = d.annos := by
  intro rs
  induction rs with
  | nil => intro as d ps hq hd; simp [polyLoop, nonempty, hd]
  | cons q rs ih =>
    intro as d ps hq hd
    have hx : (e.xv.drop (as.flatMap (·.verts)).length).take q.verts.length = q.verts.map Prod.fst := by
      rw [he.xv, hq, List.flatMap_append, List.flatMap_cons, List.map_append, List.map_append]
      rw [List.drop_left' (by simp), List.take_left' (by simp)]
    have hy : (e.yv.drop (as.flatMap (·.verts)).length).take q.verts.length = q.verts.map Prod.snd := by
      rw [he.yv, hq, List.flatMap_append, List.flatMap_cons, List.map_append, List.map_append]
      rw [List.drop_left' (by simp), List.take_left' (by simp)]
    have c1 : e.closed.getD as.length false = q.closed := by rw [he.closed, hq]; simp
    have c2 : e.colors.getD as.length "" = q.color := by rw [he.colors, hq]; simp
    have c3 : e.layers.getD as.length "" = q.layer := by rw [he.layers, hq]; simp
    have ha := appendPolygon_rep d ps hd q.verts.length _ _ q rfl hx hy
    simp only [List.map_cons, polyLoop, c1, c2, c3]
    have := ih (as ++ [q]) _ _ (by simp [hq]) ha.1
    simp only [List.length_append, List.length_cons, List.length_nil, List.flatMap_append, List.flatMap_cons, List.flatMap_nil, List.append_nil] at this
    refine ⟨?_, this.2.trans ha.2⟩
    have t := this.1
    by_cases hv : q.verts = []
    · rw [if_pos hv] at t; simpa [nonempty, hv] using t
    · rw [if_neg hv] at t
      have hne : q.verts.isEmpty = false := by simp [hv]
      simpa [nonempty, hne] using t

theorem foldl_push {α : Type} (l a : List α) : l.foldl (fun a x => a ++ [x]) a = a ++ l := by
  induction l generalizing a with
  | nil => simp
  | cons x l ih => rw [List.foldl_cons, ih]; simp

/-- **Appending a set of polygons** puts the polygons with vertices at the end, and the annotations after the old ones. -/
theorem appendPolygons_rep (d e : DPoly K) (ps qs : List (Poly K)) (hd : Rep d ps) (he : Rep e qs) :
    Rep (appendPolygons d e) (ps ++ nonempty qs) ∧ (appendPolygons d e).annos = d.annos ++ e.annos := by
  have := appendPolygons_loop e qs he qs [] d ps rfl hd
  unfold appendPolygons
  simp only [take_all e qs he, foldl_push]
  simp only [List.length_nil, List.flatMap_nil] at this
  refine ⟨?_, by rw [show ∀ (a b : List (Anno K)), a = b → a ++ e.annos = b ++ e.annos from fun a b h => by rw [h]]; exact this.2⟩
  obtain ⟨⟨a, b, c, f, g, i, j, k⟩, _⟩ := this
  exact ⟨a, b, c, f, g, i, j, k⟩

/-- **A rectangle** is its four corners, from `(xl, yl)` to `(xh, yl)` and on. -/
theorem appendRectangle_rep (d : DPoly K) (ps : List (Poly K)) (h : Rep d ps) (xl yl xh yh : K) (c : Bool) (color layer : String) :
    Rep (appendRectangle d xl yl xh yh c color layer) (ps ++ [⟨[(xl, yl), (xh, yl), (xh, yh), (xl, yh)], c, color, layer⟩]) := by
  have := (appendPolygon_rep d ps h 4 [xl, xh, xh, xl] [yl, yl, yh, yh] ⟨[(xl, yl), (xh, yl), (xh, yh), (xl, yh)], c, color, layer⟩ rfl rfl rfl).1
  rw [if_neg (by simp)] at this
  exact this

/-- **Setting** a polygon or a rectangle forgets what was there. -/
theorem setPolygon_rep (n : Nat) (xs ys : List K) (q : Poly K)
    (hn : q.verts.length = n) (hx : xs.take n = q.verts.map Prod.fst) (hy : ys.take n = q.verts.map Prod.snd) :
    Rep (setPolygon n xs ys q.closed q.color q.layer) (nonempty [q]) ∧ (setPolygon n xs ys q.closed q.color q.layer).annos = [] := by
  have := appendPolygon_rep reset [] reset_rep n xs ys q hn hx hy
  unfold setPolygon
  refine ⟨?_, this.2⟩
  have t := this.1
  by_cases hv : q.verts = []
  · rw [if_pos hv] at t; simpa [nonempty, hv] using t
  · rw [if_neg hv] at t
    have hne : q.verts.isEmpty = false := by simp [hv]
    simpa [nonempty, hne] using t

/-! ### Moving -/

theorem moveAll_rep (f : Pt K → Pt K) (d : DPoly K) (ps : List (Poly K)) (h : Rep d ps) :
    Rep (moveAll f d) (ps.map (Poly.onVerts (List.map f))) := by
  have e : forRange d.xv.length (fun i => updPt f i) (d.xv, d.yv) = sp ((ps.flatMap (·.verts)).map f) := by
    have := onVerts_sp f (ps.flatMap (·.verts)) [] []
    unfold onVerts at this
    simp only [List.length_nil, Nat.zero_add, List.nil_append, List.append_nil] at this
    rw [← this, h.xv, h.yv, List.length_map]; rfl
  have hf : (ps.map (Poly.onVerts (List.map f))).flatMap (·.verts) = (ps.flatMap (·.verts)).map f := by
    rw [List.flatMap_map, List.map_flatMap]; rfl
  unfold moveAll
  refine ⟨?_, ?_, ?_, ?_, ?_, ?_, ?_, ?_⟩
  · simp only [e, hf]; rfl
  · simp only [e, hf]; rfl
  · simp [h.numVerts, Poly.onVerts, Function.comp_def]
  · simp [h.numPolys]
  · simp [h.total, Poly.onVerts, Function.comp_def]
  · simp [h.closed, Poly.onVerts, Function.comp_def]
  · simp [h.colors, Poly.onVerts, Function.comp_def]
  · simp [h.layers, Poly.onVerts, Function.comp_def]

/-- **Moving, turning, scaling and transforming** a set of polygons changes every vertex of every polygon, and every
annotation, by the same map, and nothing else; the transform that is saved is the one that was applied. -/
theorem move_rep (d : DPoly K) (ps : List (Poly K)) (h : Rep d ps) :
    (∀ sx sy, Rep (shift sx sy d) (ps.map (Poly.onVerts (List.map fun p => (p.1 + sx, p.2 + sy))))
      ∧ (shift sx sy d).annos = d.annos.map fun a => ⟨a.x + sx, a.y + sy, a.label⟩)
    ∧ (∀ c s, Rep (rotate c s d) (ps.map (Poly.onVerts (List.map fun p => (c * p.1 - s * p.2, s * p.1 + c * p.2))))
      ∧ (rotate c s d).annos = d.annos.map fun a => ⟨c * a.x - s * a.y, s * a.x + c * a.y, a.label⟩)
    ∧ (∀ k, Rep (scale k d) (ps.map (Poly.onVerts (List.map fun p => (p.1 * k, p.2 * k))))
      ∧ (scale k d).annos = d.annos.map fun a => ⟨a.x * k, a.y * k, a.label⟩)
    ∧ (∀ a11 a12 a21 a22 sx sy,
      let r := applyTransform a11 a12 a21 a22 sx sy d
      Rep r.1 (ps.map (Poly.onVerts (List.map fun p => (a11 * p.1 + a12 * p.2 + sx, a21 * p.1 + a22 * p.2 + sy))))
      ∧ r.1.annos = d.annos.map (fun a => ⟨a11 * a.x + a12 * a.y + sx, a21 * a.x + a22 * a.y + sy, a.label⟩)
      ∧ Rep r.1 (ps.map (Poly.onVerts (List.map r.2.app)))) := by
  refine ⟨fun sx sy => ⟨moveAll_rep _ d ps h, rfl⟩, fun c s => ⟨moveAll_rep _ d ps h, rfl⟩, fun k => ⟨moveAll_rep _ d ps h, rfl⟩, ?_⟩
  intro a11 a12 a21 a22 sx sy
  exact ⟨moveAll_rep _ d ps h, rfl, moveAll_rep _ d ps h⟩

theorem rep_verts (d d' : DPoly K) (ps : List (Poly K)) (h : Rep d ps) (F : Nat → List (Pt K) → List (Pt K)) (hF : ∀ i l, (F i l).length = l.length)
    (hxy : (d'.xv, d'.yv) = sp ((ps.mapIdx fun i q => q.onVerts (F i)).flatMap (·.verts)))
    (h0 : d'.numVerts = d.numVerts) (h1 : d'.numPolys = d.numPolys) (h5 : d'.totalNumVerts = d.totalNumVerts)
    (h2 : d'.closed = d.closed) (h3 : d'.colors = d.colors) (h4 : d'.layers = d.layers) :
    Rep d' (ps.mapIdx fun i q => q.onVerts (F i)) := by
  have e : ∀ {β : Type} (g : Poly K → β), (∀ i q, g (Poly.onVerts (F i) q) = g q) → (ps.mapIdx fun i q => q.onVerts (F i)).map g = ps.map g := by
    intro β g hg
    apply List.ext_getElem?; intro j
    simp only [List.getElem?_map, List.getElem?_mapIdx]
    cases ps[j]? <;> simp [hg]
  refine ⟨congrArg Prod.fst hxy, congrArg Prod.snd hxy, ?_, ?_, ?_, ?_, ?_, ?_⟩
  · rw [h0, h.numVerts, e]; intro i q; exact hF i q.verts
  · rw [h1, h.numPolys]; simp
  · rw [h5, h.total, e]; intro i q; exact hF i q.verts
  · rw [h2, h.closed, e]; intro i q; rfl
  · rw [h3, h.colors, e]; intro i q; rfl
  · rw [h4, h.layers, e]; intro i q; rfl

/-- **Transforming the marked polygons** moves the vertices of these, and no others. -/
theorem transformMarked_rep (d : DPoly K) (ps : List (Poly K)) (h : Rep d ps) (mark : List Nat) (T : LinTrans K) :
    Rep (transformMarkedPolys mark T d) (ps.mapIdx fun i q => if i ∈ mark then q.onVerts (List.map T.app) else q) ∧
    (transformMarkedPolys mark T d).annos = d.annos := by
  refine ⟨?_, rfl⟩
  have e := polyLoop_verts (fun p => if mark.contains p then some T.app else none) ps [] 0
  simp only [List.length_nil, List.nil_append, Nat.zero_add] at e
  have hs : (ps.mapIdx fun i q => if i ∈ mark then q.onVerts (List.map T.app) else q)
      = ps.mapIdx fun i q => q.onVerts (if i ∈ mark then List.map T.app else id) := by
    congr 1; funext i q; by_cases hi : i ∈ mark <;> simp [hi, Poly.onVerts]
  rw [hs]
  apply rep_verts d _ ps h (fun i => if i ∈ mark then List.map T.app else id)
  · intro i l; split <;> simp
  · rw [← hs]
    unfold transformMarkedPolys
    rw [take_all d ps h, h.xv, h.yv]
    simp only [Prod.mk.eta]
    have : (ps.mapIdx fun i q => if i ∈ mark then q.onVerts (List.map T.app) else q)
      = ps.mapIdx fun i q => (if mark.contains i then some T.app else none).elim q fun f => q.onVerts (List.map f) := by
      congr 1; funext i q; by_cases hi : i ∈ mark <;> simp [hi]
    rw [this, ← e]
    unfold sp
    congr 1
    funext p s n st
    by_cases hi : mark.contains p = true
    · simp only [hi, if_true]; rfl
    · simp only [hi]; rfl
  all_goals rfl

end field

end Verif.Geom.Polys
