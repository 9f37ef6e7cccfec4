import Mathlib.Tactic.Ring
import Mathlib.Algebra.Order.BigOperators.Group.List
import Verif.Geom.DPoly.Spec

/-
Loops over the flat vectors of a `dPoly`, as operations on lists of polygons.
-/

namespace Verif.Geom.Polys

open Verif.Geom.Poly

variable {K : Type}

theorem forRange_succ {σ : Type} (n : Nat) (body : Nat → σ → σ) (st : σ) :
    forRange (n + 1) body st = body n (forRange n body st) := by
  simp [forRange, List.range_succ]

theorem forRange_succ' {σ : Type} (n : Nat) (body : Nat → σ → σ) (st : σ) :
    forRange (n + 1) body st = forRange n (fun v => body (v + 1)) (body 0 st) := by
  simp [forRange, List.range_succ_eq_map, List.foldl_map]

/-- The coordinates of points. -/
def sp (L : List (Pt K)) : List K × List K := (L.map Prod.fst, L.map Prod.snd)

theorem startOf_eq (nv : List Nat) (p : Nat) : startOf nv p = (nv.take p).sum := by
  unfold startOf
  induction p with
  | zero => simp [forRange]
  | succ p ih =>
    rw [forRange_succ, ih]
    rcases lt_or_ge p nv.length with h | h
    · rw [List.take_succ_eq_append_getElem h]; simp [h]
    · rw [List.take_of_length_le h, List.take_of_length_le (by omega)]; simp [h]

theorem split_at {α : Type} (l : List α) (i : Nat) (h : i < l.length) : l = l.take i ++ l[i] :: l.drop (i + 1) := by simp

/-- The vertices before a polygon, its own, and those after. -/
theorem flat_split (ps : List (Poly K)) (p : Nat) (h : p < ps.length) :
    ps.flatMap (·.verts) = (ps.take p).flatMap (·.verts) ++ ps[p].verts ++ (ps.drop (p + 1)).flatMap (·.verts) := by
  conv_lhs => rw [split_at ps p h, List.flatMap_append, List.flatMap_cons, ← List.append_assoc]

theorem length_flat (ps : List (Poly K)) : (ps.flatMap (·.verts)).length = (ps.map (·.verts.length)).sum := by
  simp [List.length_flatMap]

theorem start_eq (ps : List (Poly K)) (p : Nat) :
    startOf (ps.map (·.verts.length)) p = ((ps.take p).flatMap (·.verts)).length := by
  rw [startOf_eq, length_flat, List.map_take]

theorem modify_split {α : Type} (l : List α) (i : Nat) (f : α → α) (h : i < l.length) :
    l.modify i f = l.take i ++ f l[i] :: l.drop (i + 1) := by
  rw [List.modify_eq_take_cons_drop h]

theorem flat_modify (ps : List (Poly K)) (p : Nat) (h : p < ps.length) (f : List (Pt K) → List (Pt K)) :
    (ps.modify p (Poly.onVerts f)).flatMap (·.verts) =
      (ps.take p).flatMap (·.verts) ++ f ps[p].verts ++ (ps.drop (p + 1)).flatMap (·.verts) := by
  rw [modify_split _ _ _ h]; simp [Poly.onVerts]

theorem map_modify_same {α β : Type} (l : List α) (i : Nat) (f : α → α) (g : α → β) (h : ∀ a, g (f a) = g a) :
    (l.modify i f).map g = l.map g := by
  apply List.ext_getElem?; intro j
  simp only [List.getElem?_map, List.getElem?_modify]
  cases l[j]? <;> simp; split <;> simp [h]

/-- A change of the vertices of one polygon. -/
theorem rep_modify (d d' : DPoly K) (ps : List (Poly K)) (p : Nat) (hp : p < ps.length) (f : List (Pt K) → List (Pt K)) (h : Rep d ps)
    (hx : d'.xv = ((ps.take p).flatMap (·.verts) ++ f ps[p].verts ++ (ps.drop (p + 1)).flatMap (·.verts)).map Prod.fst)
    (hy : d'.yv = ((ps.take p).flatMap (·.verts) ++ f ps[p].verts ++ (ps.drop (p + 1)).flatMap (·.verts)).map Prod.snd)
    (hn : d'.numVerts = d.numVerts.set p (f ps[p].verts).length)
    (ht : d'.totalNumVerts + ps[p].verts.length = d.totalNumVerts + (f ps[p].verts).length)
    (h1 : d'.numPolys = d.numPolys) (h2 : d'.closed = d.closed) (h3 : d'.colors = d.colors) (h4 : d'.layers = d.layers) :
    Rep d' (ps.modify p (Poly.onVerts f)) := by
  have hnv : d'.numVerts = (ps.modify p (Poly.onVerts f)).map (·.verts.length) := by
    rw [hn, h.numVerts]
    apply List.ext_getElem?; intro j
    by_cases hj : p = j
    · subst hj; simp [List.getElem?_map, List.getElem?_modify, hp, Poly.onVerts]
    · simp [List.getElem?_map, List.getElem?_modify, List.getElem?_set, hj]
  refine ⟨?_, ?_, hnv, ?_, ?_, ?_, ?_, ?_⟩
  · rw [hx, flat_modify _ _ hp]
  · rw [hy, flat_modify _ _ hp]
  · rw [h1, h.numPolys]; simp
  · have e1 := h.total
    rw [← length_flat, flat_modify _ _ hp]
    rw [← length_flat, flat_split _ _ hp] at e1
    simp only [List.length_append] at *
    omega
  · rw [h2, h.closed, map_modify_same]; intro a; rfl
  · rw [h3, h.colors, map_modify_same]; intro a; rfl
  · rw [h4, h.layers, map_modify_same]; intro a; rfl

theorem numVerts_getD (d : DPoly K) (ps : List (Poly K)) (h : Rep d ps) (p : Nat) (hp : p < ps.length) :
    d.numVerts.getD p 0 = ps[p].verts.length := by
  rw [h.numVerts]; simp [hp]

theorem take_all (d : DPoly K) (ps : List (Poly K)) (h : Rep d ps) :
    d.numVerts.take d.numPolys = ps.map (·.verts.length) := by
  rw [h.numVerts, h.numPolys]; simp

section field
variable [Field K] [LinearOrder K]

theorem updPt_sp (f : Pt K → Pt K) (i : Nat) (L : List (Pt K)) : updPt f i (sp L) = sp (L.modify i f) := by
  unfold updPt sp
  apply Prod.ext
  all_goals
    apply List.ext_getElem?; intro j
    by_cases hi : i < L.length
    · by_cases hj : i = j
      · subst hj; simp [hi]
      · simp [List.getElem?_modify, List.getElem?_set, hj]
    · rw [List.modify_eq_self (by omega)]
      simp only []
      rw [List.set_eq_of_length_le (by simp; omega)]

theorem updPt_mid (f : Pt K → Pt K) (A C : List (Pt K)) (b : Pt K) :
    updPt f A.length (sp (A ++ b :: C)) = sp (A ++ f b :: C) := by
  rw [updPt_sp, modify_split _ _ _ (by simp)]; simp

theorem onVerts_sp (f : Pt K → Pt K) (B : List (Pt K)) : ∀ (A C : List (Pt K)),
    onVerts f A.length B.length (sp (A ++ B ++ C)) = sp (A ++ B.map f ++ C) := by
  induction B with
  | nil => intro A C; simp [onVerts, forRange]
  | cons b B ih =>
    intro A C
    have := ih (A ++ [f b]) C
    unfold onVerts at *
    rw [List.length_cons, forRange_succ']
    simp only [Nat.add_zero, List.append_assoc, List.cons_append, List.map_cons]
    rw [updPt_mid]
    simp only [List.length_append, List.length_cons, List.length_nil, List.append_assoc, List.cons_append, List.nil_append] at this
    rw [← this]
    congr 1
    funext v; congr 1; omega

theorem polyLoop_verts (g : Nat → Option (Pt K → Pt K)) (ps : List (Poly K)) : ∀ (A : List (Pt K)) (p : Nat),
    polyLoop (fun p s n st => (g p).elim st fun f => onVerts f s n st) p A.length (ps.map (·.verts.length)) (sp (A ++ ps.flatMap (·.verts))) =
    sp (A ++ (ps.mapIdx fun i q => (g (p + i)).elim q fun f => q.onVerts (List.map f)).flatMap (·.verts)) := by
  induction ps with
  | nil => intro A p; simp [polyLoop]
  | cons q ps ih =>
    intro A p
    rw [List.map_cons, polyLoop, List.mapIdx_cons]
    simp only [Nat.add_zero, List.flatMap_cons]
    cases hg : g p with
    | none =>
      have := ih (A ++ q.verts) (p + 1)
      simp only [List.length_append, List.append_assoc] at this
      simp only [Option.elim]
      simp only [Option.elim] at this
      rw [this]
      simp [Nat.add_assoc, Nat.add_comm 1]
    | some f =>
      simp only [Option.elim]
      rw [← List.append_assoc, onVerts_sp]
      have := ih (A ++ q.verts.map f) (p + 1)
      simp only [List.length_append, List.length_map, Option.elim] at this
      rw [this]
      simp [Nat.add_assoc, Nat.add_comm 1, Poly.onVerts]

end field

end Verif.Geom.Polys
