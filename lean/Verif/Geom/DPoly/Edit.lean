import Mathlib.Data.List.Lemmas
import Verif.Geom.DPoly.Ops

/-
C124, continued: editing one polygon, reversing, extracting.
-/

namespace Verif.Geom.Polys

open Verif.Geom.Poly

variable {K : Type}

theorem insertIdx_mid {α : Type} (A B C : List α) (v : Nat) (a : α) (hv : v ≤ B.length) :
    (A ++ B ++ C).insertIdx (A.length + v) a = A ++ B.insertIdx v a ++ C := by
  induction A with
  | nil =>
    simp only [List.nil_append, List.length_nil, Nat.zero_add]
    induction v generalizing B with
    | zero => simp
    | succ v ih => cases B with
      | nil => simp at hv
      | cons b B => simp only [List.cons_append, List.insertIdx_succ_cons]; rw [ih B (by simpa using hv)]
  | cons x A ih => simp only [List.cons_append, List.length_cons, Nat.succ_add, List.insertIdx_succ_cons]; rw [ih]

theorem eraseIdx_mid {α : Type} (A B C : List α) (v : Nat) (hv : v < B.length) :
    (A ++ B ++ C).eraseIdx (A.length + v) = A ++ B.eraseIdx v ++ C := by
  rw [List.append_assoc, List.eraseIdx_append_of_length_le (by omega), Nat.add_sub_cancel_left,
    List.eraseIdx_append_of_lt_length hv, List.append_assoc]

theorem set_mid {α : Type} (A B C : List α) (v : Nat) (a : α) (hv : v < B.length) :
    (A ++ B ++ C).set (A.length + v) a = A ++ B.set v a ++ C := by
  rw [List.append_assoc, List.set_append_right _ _ (by omega), Nat.add_sub_cancel_left, List.set_append_left _ _ hv, List.append_assoc]

theorem modify_mid {α : Type} (A B C : List α) (v : Nat) (f : α → α) (hv : v < B.length) :
    (A ++ B ++ C).modify (A.length + v) f = A ++ B.modify v f ++ C := by
  induction A with
  | nil =>
    simp only [List.nil_append, List.length_nil, Nat.zero_add]
    induction v generalizing B with
    | zero => cases B with
      | nil => simp at hv
      | cons b B => rfl
    | succ v ih => cases B with
      | nil => simp at hv
      | cons b B => simp only [List.cons_append, List.modify_succ_cons]; rw [ih B (by simpa using hv)]
  | cons x A ih => simp only [List.cons_append, List.length_cons, Nat.succ_add, List.modify_succ_cons]; rw [ih]

theorem map_insertIdx' {α β : Type} (f : α → β) : ∀ (l : List α) (i : Nat) (a : α), (l.insertIdx i a).map f = (l.map f).insertIdx i (f a) := by
  intro l i a
  induction i generalizing l with
  | zero => simp
  | succ i ih => cases l with
    | nil => simp
    | cons b l => simp [ih]

theorem map_eraseIdx' {α β : Type} (f : α → β) : ∀ (l : List α) (i : Nat), (l.eraseIdx i).map f = (l.map f).eraseIdx i := by
  intro l i
  induction i generalizing l with
  | zero => cases l <;> simp
  | succ i ih => cases l with
    | nil => simp
    | cons b l => simp [ih]

variable [Field K] [LinearOrder K]

theorem start_rep (d : DPoly K) (ps : List (Poly K)) (h : Rep d ps) (p : Nat) :
    startOf d.numVerts p = ((ps.take p).flatMap (·.verts)).length := by rw [h.numVerts, start_eq]

theorem xv_split (d : DPoly K) (ps : List (Poly K)) (h : Rep d ps) (p : Nat) (hp : p < ps.length) :
    d.xv = ((ps.take p).flatMap (·.verts) ++ ps[p].verts ++ (ps.drop (p + 1)).flatMap (·.verts)).map Prod.fst := by
  rw [h.xv, flat_split _ _ hp]

theorem yv_split (d : DPoly K) (ps : List (Poly K)) (h : Rep d ps) (p : Nat) (hp : p < ps.length) :
    d.yv = ((ps.take p).flatMap (·.verts) ++ ps[p].verts ++ (ps.drop (p + 1)).flatMap (·.verts)).map Prod.snd := by
  rw [h.yv, flat_split _ _ hp]

/-- **Inserting a vertex** puts it before the vertex of that index of that polygon (or at its end). -/
theorem insertVertex_rep (d : DPoly K) (ps : List (Poly K)) (h : Rep d ps) (p v : Nat) (x y : K) (hp : p < ps.length)
    (hv : v ≤ ps[p].verts.length) :
    Rep (insertVertex p v x y d) (ps.modify p (Poly.onVerts fun l => l.insertIdx v (x, y))) ∧ (insertVertex p v x y d).annos = d.annos := by
  refine ⟨?_, rfl⟩
  have hl : (ps[p].verts.insertIdx v (x, y)).length = ps[p].verts.length + 1 := List.length_insertIdx_of_le_length hv _
  apply rep_modify d _ ps p hp _ h
  · simp only [insertVertex]
    rw [start_rep d ps h, xv_split d ps h p hp, ← insertIdx_mid _ _ _ _ _ hv, map_insertIdx']
  · simp only [insertVertex]
    rw [start_rep d ps h, yv_split d ps h p hp, ← insertIdx_mid _ _ _ _ _ hv, map_insertIdx']
  · simp only [insertVertex]; rw [numVerts_getD d ps h p hp, hl]
  · simp only [insertVertex]; rw [hl]; omega
  all_goals rfl

/-- **Erasing a vertex** takes out the vertex of that index of that polygon.  The polygon stays, even without vertices. -/
theorem eraseVertex_rep (d : DPoly K) (ps : List (Poly K)) (h : Rep d ps) (p v : Nat) (hp : p < ps.length) (hv : v < ps[p].verts.length) :
    Rep (eraseVertex p v d) (ps.modify p (Poly.onVerts fun l => l.eraseIdx v)) ∧ (eraseVertex p v d).annos = d.annos := by
  refine ⟨?_, rfl⟩
  have hl : (ps[p].verts.eraseIdx v).length = ps[p].verts.length - 1 := List.length_eraseIdx_of_lt hv
  apply rep_modify d _ ps p hp _ h
  · simp only [eraseVertex]
    rw [start_rep d ps h, xv_split d ps h p hp, ← eraseIdx_mid _ _ _ _ hv, map_eraseIdx']
  · simp only [eraseVertex]
    rw [start_rep d ps h, yv_split d ps h p hp, ← eraseIdx_mid _ _ _ _ hv, map_eraseIdx']
  · simp only [eraseVertex]; rw [numVerts_getD d ps h p hp, hl]
  · simp only [eraseVertex]; rw [hl]
    have e := h.total
    rw [← length_flat, flat_split _ _ hp] at e
    simp only [List.length_append] at e
    omega
  all_goals rfl

/-- A polygon is changed, its number of vertices is not. -/
theorem rep_modify_same (d d' : DPoly K) (ps : List (Poly K)) (p : Nat) (hp : p < ps.length) (f : List (Pt K) → List (Pt K)) (h : Rep d ps)
    (hf : (f ps[p].verts).length = ps[p].verts.length)
    (hxy : (d'.xv, d'.yv) = sp ((ps.take p).flatMap (·.verts) ++ f ps[p].verts ++ (ps.drop (p + 1)).flatMap (·.verts)))
    (hn : d'.numVerts = d.numVerts) (ht : d'.totalNumVerts = d.totalNumVerts)
    (h1 : d'.numPolys = d.numPolys) (h2 : d'.closed = d.closed) (h3 : d'.colors = d.colors) (h4 : d'.layers = d.layers) :
    Rep d' (ps.modify p (Poly.onVerts f)) := by
  apply rep_modify d d' ps p hp f h (congrArg Prod.fst hxy) (congrArg Prod.snd hxy) _ (by rw [ht, hf]) h1 h2 h3 h4
  rw [hn, hf, h.numVerts]
  apply List.ext_getElem?; intro j
  by_cases hj : p = j
  · subst hj; simp [hp]
  · simp [List.getElem?_set, hj]

theorem sp_split (d : DPoly K) (ps : List (Poly K)) (h : Rep d ps) (p : Nat) (hp : p < ps.length) :
    (d.xv, d.yv) = sp ((ps.take p).flatMap (·.verts) ++ ps[p].verts ++ (ps.drop (p + 1)).flatMap (·.verts)) := by
  rw [xv_split d ps h p hp, yv_split d ps h p hp]; rfl

/-- **Changing a vertex** changes the vertex of that index of that polygon. -/
theorem changeVertex_rep (d : DPoly K) (ps : List (Poly K)) (h : Rep d ps) (p v : Nat) (x y : K) (hp : p < ps.length) (hv : v < ps[p].verts.length) :
    Rep (changeVertexValue p v x y d) (ps.modify p (Poly.onVerts fun l => l.set v (x, y))) ∧
    (changeVertexValue p v x y d).annos = d.annos := by
  refine ⟨?_, rfl⟩
  apply rep_modify_same d _ ps p hp _ h (by simp)
  · simp only [changeVertexValue]
    rw [start_rep d ps h, xv_split d ps h p hp, yv_split d ps h p hp, ← set_mid _ _ _ _ _ hv]
    simp [sp, List.map_set]
  all_goals rfl

omit [Field K] [LinearOrder K] in
theorem modify_edge (B : List (Pt K)) (v : Nat) (f : Pt K → Pt K) (hv : v < B.length) (h1 : 2 ≤ B.length) :
    (B.modify v f).modify ((v + 1) % B.length) f = B.mapIdx fun i q => if i = v ∨ i = (v + 1) % B.length then f q else q := by
  apply List.ext_getElem?; intro j
  simp only [List.getElem?_modify, List.getElem?_mapIdx]
  have hne : (v + 1) % B.length ≠ v := by
    rcases Nat.lt_or_ge (v + 1) B.length with h2 | h2
    · rw [Nat.mod_eq_of_lt h2]; omega
    · have : v + 1 = B.length := by omega
      rw [this, Nat.mod_self]; omega
  cases B[j]? with
  | none => rfl
  | some b =>
    by_cases c1 : v = j
    · subst c1; simp [hne]
    · by_cases c2 : (v + 1) % B.length = j
      · simp [c1, c2]
      · have c3 : ¬ (j = v ∨ j = (v + 1) % B.length) := by
          rintro (c | c)
          · exact c1 c.symm
          · exact c2 c.symm
        simp [c1, c2, c3]

/-- **Shifting an edge** shifts its two ends: the vertex and the next one, the first one after the last.  In a polygon with
one vertex this vertex is shifted once. -/
theorem shiftEdge_rep (d : DPoly K) (ps : List (Poly K)) (h : Rep d ps) (p v : Nat) (sx sy : K) (hp : p < ps.length) (hv : v < ps[p].verts.length) :
    Rep (shiftEdge p v sx sy d) (ps.modify p (Poly.onVerts fun l => l.mapIdx fun i q =>
      if i = v ∨ i = (v + 1) % l.length then (q.1 + sx, q.2 + sy) else q)) ∧ (shiftEdge p v sx sy d).annos = d.annos := by
  constructor
  swap
  · unfold shiftEdge; simp only []; split <;> rfl
  set f : Pt K → Pt K := fun q => (q.1 + sx, q.2 + sy) with hf
  set A := (ps.take p).flatMap (·.verts) with hA
  set C := (ps.drop (p + 1)).flatMap (·.verts) with hC
  set B := ps[p].verts with hB
  have e1 : updPt f (startOf d.numVerts p + v) (d.xv, d.yv) = sp (A ++ B.modify v f ++ C) := by
    rw [start_rep d ps h, sp_split d ps h p hp, updPt_sp, modify_mid _ _ _ _ _ hv]
  apply rep_modify_same d _ ps p hp _ h (by simp)
  · by_cases h1 : B.length ≤ 1
    · have hd : shiftEdge p v sx sy d = { d with xv := (sp (A ++ B.modify v f ++ C)).1, yv := (sp (A ++ B.modify v f ++ C)).2, vertAnno := [] } := by
        unfold shiftEdge
        simp only []
        rw [if_pos (by rw [numVerts_getD d ps h p hp]; exact h1), e1]
      rw [hd]
      simp only [Prod.mk.eta]
      congr 3
      apply List.ext_getElem?; intro j
      simp only [List.getElem?_modify, List.getElem?_mapIdx]
      have hl : B.length = 1 := by omega
      rcases Nat.lt_or_ge j B.length with hj | hj
      · have : j = 0 := by omega
        have : v = 0 := by omega
        subst j; subst v
        rw [List.getElem?_eq_getElem hj]; simp [hf]
      · rw [List.getElem?_eq_none hj]; rfl
    · have hB0 : 0 < B.length := by omega
      have e2 : updPt f (startOf d.numVerts p + (v + 1) % d.numVerts.getD p 0) (sp (A ++ B.modify v f ++ C))
          = sp (A ++ (B.modify v f).modify ((v + 1) % B.length) f ++ C) := by
        rw [numVerts_getD d ps h p hp, start_rep d ps h, updPt_sp, modify_mid]
        rw [List.length_modify]; exact Nat.mod_lt _ hB0
      have hd : shiftEdge p v sx sy d = { d with
          xv := (sp (A ++ (B.modify v f).modify ((v + 1) % B.length) f ++ C)).1
          yv := (sp (A ++ (B.modify v f).modify ((v + 1) % B.length) f ++ C)).2
          vertAnno := [] } := by
        unfold shiftEdge
        simp only []
        rw [if_neg (by rw [numVerts_getD d ps h p hp]; exact h1), e1, e2]
      rw [hd, modify_edge B v f hv (by omega)]
  all_goals (unfold shiftEdge; simp only []; split <;> rfl)

/-- **Shifting a polygon** shifts all its vertices. -/
theorem shiftOnePoly_rep (d : DPoly K) (ps : List (Poly K)) (h : Rep d ps) (p : Nat) (sx sy : K) (hp : p < ps.length) :
    Rep (shiftOnePoly p sx sy d) (ps.modify p (Poly.onVerts (List.map fun q => (q.1 + sx, q.2 + sy)))) ∧
    (shiftOnePoly p sx sy d).annos = d.annos := by
  refine ⟨?_, rfl⟩
  apply rep_modify_same d _ ps p hp _ h (by simp)
  · simp only [shiftOnePoly]
    rw [start_rep d ps h, numVerts_getD d ps h p hp, sp_split d ps h p hp, onVerts_sp]
  all_goals rfl

theorem modify_marked {α : Type} (f : α → α) (mark : List Nat) : ∀ (ps : List α), mark.Nodup →
    mark.foldl (fun l p => l.modify p f) ps = ps.mapIdx fun i q => if i ∈ mark then f q else q := by
  induction mark with
  | nil => intro ps _; apply List.ext_getElem?; intro j; simp
  | cons m mark ih =>
    intro ps hn
    rw [List.foldl_cons, ih _ (List.nodup_cons.mp hn).2]
    apply List.ext_getElem?; intro j
    simp only [List.getElem?_mapIdx, List.getElem?_modify]
    cases ps[j]? with
    | none => rfl
    | some a =>
      by_cases hj : m = j
      · subst hj; simp [(List.nodup_cons.mp hn).1]
      · simp [hj, Ne.symm hj]

/-- **Shifting the marked polygons** shifts all the vertices of these, once, and no others. -/
theorem shiftMarked_rep (d : DPoly K) (ps : List (Poly K)) (h : Rep d ps) (mark : List Nat) (hm : mark.Nodup)
    (hb : ∀ m ∈ mark, m < ps.length) (sx sy : K) :
    Rep (shiftMarkedPolys mark sx sy d)
      (ps.mapIdx fun i q => if i ∈ mark then q.onVerts (List.map fun q => (q.1 + sx, q.2 + sy)) else q) := by
  rw [← modify_marked _ _ _ hm]
  unfold shiftMarkedPolys
  clear hm
  induction mark generalizing d ps with
  | nil => exact h
  | cons m mark ih =>
    rw [List.foldl_cons, List.foldl_cons]
    refine ih _ _ (shiftOnePoly_rep d ps h m sx sy (hb m (by simp))).1 ?_
    intro k hk; rw [List.length_modify]; exact hb k (by simp [hk])

/-! ### Reversing -/

theorem revRange_mid {α : Type} (A B C : List α) : revRange A.length B.length (A ++ B ++ C) = A ++ B.reverse ++ C := by
  unfold revRange
  rw [← List.length_append, List.drop_left, List.append_assoc A B C, List.take_left, List.drop_left, List.take_left]

theorem reverse_loop (ps : List (Poly K)) : ∀ (A : List (Pt K)) (p : Nat),
    polyLoop (fun _ s n (st : List K × List K) => (revRange s n st.1, revRange s n st.2)) p A.length (ps.map (·.verts.length))
      (sp (A ++ ps.flatMap (·.verts))) = sp (A ++ (ps.map (Poly.onVerts List.reverse)).flatMap (·.verts)) := by
  induction ps with
  | nil => intro A p; simp [polyLoop]
  | cons q ps ih =>
    intro A p
    rw [List.map_cons, polyLoop]
    have := ih (A ++ q.verts.reverse) (p + 1)
    simp only [List.length_append, List.length_reverse] at this
    have e : ∀ (g : Pt K → K), revRange A.length q.verts.length (List.map g (A ++ (q :: ps).flatMap (·.verts)))
        = List.map g ((A ++ q.verts.reverse) ++ ps.flatMap (·.verts)) := by
      intro g
      have := revRange_mid (A.map g) (q.verts.map g) ((ps.flatMap (·.verts)).map g)
      simp only [List.length_map] at this
      simp only [List.flatMap_cons, List.map_append, ← List.append_assoc, this, List.map_reverse]
    simp only [sp, e] at this ⊢
    rw [this]
    simp [Poly.onVerts]

/-- **Reversing** turns the order of the vertices of every polygon, and no other order. -/
theorem reverse_rep (d : DPoly K) (ps : List (Poly K)) (h : Rep d ps) :
    Rep (reverse d) (ps.map (Poly.onVerts List.reverse)) := by
  have e := reverse_loop ps [] 0
  simp only [List.length_nil, List.nil_append] at e
  have hs : ps.map (Poly.onVerts List.reverse) = ps.mapIdx fun _ q => q.onVerts List.reverse := by
    apply List.ext_getElem?; intro j; simp
  rw [hs]
  apply rep_verts d _ ps h (fun _ => List.reverse) (by simp)
  · rw [← hs, ← e]
    unfold reverse
    rw [take_all d ps h, h.xv, h.yv]; rfl
  all_goals rfl

theorem reverseOne_rep (d : DPoly K) (ps : List (Poly K)) (h : Rep d ps) (p : Nat) (hp : p < ps.length) :
    Rep (reverseOnePoly p d) (ps.modify p (Poly.onVerts List.reverse)) := by
  apply rep_modify_same d _ ps p hp _ h (by simp)
  · simp only [reverseOnePoly]
    rw [start_rep d ps h, numVerts_getD d ps h p hp, xv_split d ps h p hp, yv_split d ps h p hp]
    have e : ∀ (g : Pt K → K), revRange ((ps.take p).flatMap (·.verts)).length ps[p].verts.length
        (List.map g ((ps.take p).flatMap (·.verts) ++ ps[p].verts ++ (ps.drop (p + 1)).flatMap (·.verts)))
        = List.map g ((ps.take p).flatMap (·.verts) ++ ps[p].verts.reverse ++ (ps.drop (p + 1)).flatMap (·.verts)) := by
      intro g
      have := revRange_mid (((ps.take p).flatMap (·.verts)).map g) (ps[p].verts.map g) (((ps.drop (p + 1)).flatMap (·.verts)).map g)
      rw [List.length_map, List.length_map] at this
      rw [List.map_append, List.map_append, this, List.map_append, List.map_append, List.map_reverse]
    rw [e, e]; rfl
  all_goals rfl

/-- **Reversing one polygon, or the marked ones**. -/
theorem reverseMarked_rep (d : DPoly K) (ps : List (Poly K)) (h : Rep d ps) :
    (∀ p, p < ps.length → Rep (reverseOnePoly p d) (ps.modify p (Poly.onVerts List.reverse))) ∧
    ∀ mark : List Nat, mark.Nodup → (∀ m ∈ mark, m < ps.length) →
      Rep (reverseMarkedPolys mark d) (ps.mapIdx fun i q => if i ∈ mark then q.onVerts List.reverse else q) := by
  refine ⟨fun p hp => reverseOne_rep d ps h p hp, ?_⟩
  intro mark hm hb
  rw [← modify_marked _ _ _ hm]
  unfold reverseMarkedPolys
  clear hm
  induction mark generalizing d ps with
  | nil => exact h
  | cons m mark ih =>
    rw [List.foldl_cons, List.foldl_cons]
    refine ih _ _ (reverseOne_rep d ps h m (hb m (by simp))) ?_
    intro k hk; rw [List.length_modify]; exact hb k (by simp [hk])

/-! ### Extracting -/

theorem startingIndices_getD (d : DPoly K) (ps : List (Poly K)) (h : Rep d ps) (p : Nat) (hp : p < ps.length) :
    (startingIndices d).getD p 0 = ((ps.take p).flatMap (·.verts)).length := by
  have key : ∀ m, forRange m (fun i (st : Nat × List Nat) => (st.1 + d.numVerts.getD i 0, st.2 ++ [st.1 + d.numVerts.getD i 0])) (0, [0])
      = ((d.numVerts.take m).sum, (List.range (m + 1)).map fun k => (d.numVerts.take k).sum) := by
    intro m
    induction m with
    | zero => simp [forRange]
    | succ m ih =>
      rw [forRange_succ, ih]
      have hs : (d.numVerts.take m).sum + d.numVerts.getD m 0 = (d.numVerts.take (m + 1)).sum := by
        rw [← startOf_eq, ← startOf_eq]; unfold startOf; rw [forRange_succ]
      simp only [hs]
      rw [List.range_succ (n := m + 1), List.map_append]; rfl
  unfold startingIndices
  simp only []
  rw [key]
  rw [← start_rep d ps h, startOf_eq]
  simp only [List.getD_eq_getElem?_getD, List.getElem?_map, h.numPolys]
  rw [List.getElem?_range (by omega)]; rfl

/-- **Extracting a polygon** gives it with its attributes (a polygon without vertices gives none). -/
theorem extractOne_rep (d : DPoly K) (ps : List (Poly K)) (h : Rep d ps) (p : Nat) (hp : p < ps.length) (s : Option Nat)
    (hs : s = none ∨ s = some ((startingIndices d).getD p 0)) :
    Rep (extractOnePoly p s d) (nonempty [ps[p]]) ∧ (extractOnePoly p s d).annos = [] := by
  have e : extractOnePoly p s d = setPolygon ps[p].verts.length (d.xv.drop ((ps.take p).flatMap (·.verts)).length)
      (d.yv.drop ((ps.take p).flatMap (·.verts)).length) ps[p].closed ps[p].color ps[p].layer := by
    have c1 : d.closed.getD p false = ps[p].closed := by rw [h.closed]; simp [hp]
    have c2 : d.colors.getD p "" = ps[p].color := by rw [h.colors]; simp [hp]
    have c3 : d.layers.getD p "" = ps[p].layer := by rw [h.layers]; simp [hp]
    unfold extractOnePoly
    rcases hs with hs | hs
    · subst hs; simp only [c1, c2, c3, numVerts_getD d ps h p hp, start_rep d ps h]
    · subst hs; simp only [c1, c2, c3, numVerts_getD d ps h p hp, startingIndices_getD d ps h p hp]
  rw [e]
  apply setPolygon_rep _ _ _ ps[p] rfl
  · rw [xv_split d ps h p hp, List.append_assoc, List.map_append, List.map_append]
    rw [List.drop_left' (by simp), List.take_left' (by simp)]
  · rw [yv_split d ps h p hp, List.append_assoc, List.map_append, List.map_append]
    rw [List.drop_left' (by simp), List.take_left' (by simp)]

/-- The polygons of a list at marked places. -/
def marked (mark : List Nat) (ps : List (Poly K)) : List (Poly K) := (ps.zipIdx.filter fun q => q.2 ∈ mark).map Prod.fst

theorem nonempty_append (a b : List (Poly K)) : nonempty (a ++ b) = nonempty a ++ nonempty b := by simp [nonempty]
theorem nonempty_idem (a : List (Poly K)) : nonempty (nonempty a) = nonempty a := by simp [nonempty]

/-- **Extracting the marked polygons** gives these, in order, without those that have no vertices. -/
theorem extractMarked_rep (d : DPoly K) (ps : List (Poly K)) (h : Rep d ps) (mark : List Nat) :
    Rep (extractMarkedPolys mark d) (nonempty (marked mark ps)) ∧ (extractMarkedPolys mark d).annos = [] := by
  have key : ∀ m, m ≤ ps.length →
      let r := forRange m (fun p (out : DPoly K) =>
        if mark.contains p then appendPolygons out (extractOnePoly p (some ((startingIndices d).getD p 0)) d) else out) reset
      Rep r (nonempty (marked mark (ps.take m))) ∧ r.annos = [] := by
    intro m
    induction m with
    | zero => intro _; exact ⟨reset_rep, rfl⟩
    | succ m ih =>
      intro hm
      have hi := ih (by omega)
      simp only at hi ⊢
      rw [forRange_succ]
      have ht : marked mark (ps.take (m + 1)) = marked mark (ps.take m) ++ if m ∈ mark then [ps[m]] else [] := by
        unfold marked
        rw [List.take_succ_eq_append_getElem (by omega), List.zipIdx_append, List.filter_append, List.map_append]
        congr 1
        simp only [List.zipIdx_cons, List.zipIdx_nil, List.length_take, Nat.zero_add, Nat.min_eq_left (show m ≤ ps.length by omega)]
        by_cases hk : m ∈ mark <;> simp [hk]
      by_cases hk : m ∈ mark
      · rw [if_pos (by simpa using hk), ht, if_pos hk, nonempty_append]
        have he := extractOne_rep d ps h m (by omega) _ (Or.inr rfl)
        have ha := appendPolygons_rep _ _ _ _ hi.1 he.1
        rw [nonempty_idem] at ha
        exact ⟨ha.1, by rw [ha.2, hi.2, he.2]; rfl⟩
      · rw [if_neg (by simpa using hk), ht, if_neg hk, List.append_nil]; exact hi
  have := key ps.length le_rfl
  rw [List.take_length] at this
  unfold extractMarkedPolys
  rw [h.numPolys]; exact this

/-- **Copying and shifting the marked polygons** appends shifted copies of these, and marks the copies. -/
theorem appendAndShift_rep (d : DPoly K) (ps : List (Poly K)) (h : Rep d ps) (mark : List Nat) (sx sy : K) :
    let r := appendAndShiftMarkedPolys mark sx sy d
    let copies := (nonempty (marked mark ps)).map (Poly.onVerts (List.map fun q => (q.1 + sx, q.2 + sy)))
    Rep r.1 (ps ++ copies) ∧ r.1.annos = d.annos ∧ r.2 = List.range' ps.length copies.length := by
  intro r copies
  have he := extractMarked_rep d ps h mark
  have hs := (move_rep _ _ he.1).1 sx sy
  have ha := appendPolygons_rep d _ ps _ h hs.1
  have hc : nonempty copies = copies := by
    apply List.filter_eq_self.mpr
    intro q hq
    obtain ⟨q', hq', rfl⟩ := List.mem_map.mp hq
    have := (List.mem_filter.mp hq').2
    simpa [Poly.onVerts] using this
  have ha1 : Rep r.1 (ps ++ nonempty copies) := ha.1
  rw [hc] at ha1
  refine ⟨ha1, ?_, ?_⟩
  · have := ha.2
    rw [hs.2, he.2] at this
    exact this.trans (by simp)
  · have : r.1.numPolys = ps.length + copies.length := by rw [ha1.numPolys]; simp
    show List.range' d.numPolys (r.1.numPolys - d.numPolys) = _
    rw [this, h.numPolys]; simp

end Verif.Geom.Polys
