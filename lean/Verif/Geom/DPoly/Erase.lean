import Mathlib.Data.List.Lemmas
import Verif.Geom.DPoly.Edit

/-
C124, continued: erasing and replacing polygons.
-/

namespace Verif.Geom.Polys

open Verif.Geom.Poly

variable {K : Type}

/-- The elements that are not marked. -/
def keep {α : Type} : List α → List Bool → List α
  | v :: vs, m :: ms => if m then keep vs ms else v :: keep vs ms
  | _, _ => []

theorem keep_append {α : Type} (a b : List α) (m n : List Bool) (h : a.length = m.length) : keep (a ++ b) (m ++ n) = keep a m ++ keep b n := by
  induction a generalizing m with
  | nil => cases m with
    | nil => rfl
    | cons => simp at h
  | cons x a ih => cases m with
    | nil => simp at h
    | cons y m =>
      simp only [List.cons_append, keep]
      rw [ih m (by simpa using h)]
      split <;> simp

theorem keep_map {α β : Type} (f : α → β) (a : List α) (m : List Bool) : keep (a.map f) m = (keep a m).map f := by
  induction a generalizing m with
  | nil => cases m <;> rfl
  | cons x a ih => cases m with
    | nil => rfl
    | cons y m => simp only [List.map_cons, keep]; rw [ih]; split <;> simp

theorem keep_replicate {α : Type} (a : List α) (b : Bool) : keep a (List.replicate a.length b) = if b then [] else a := by
  induction a with
  | nil => cases b <;> rfl
  | cons x a ih => cases b <;> simp_all [keep, List.replicate_succ]

theorem take_succ_set {α : Type} (l : List α) (n : Nat) (a : α) (h : n < l.length) : (l.set n a).take (n + 1) = l.take n ++ [a] := by
  rw [List.take_succ_eq_append_getElem (by simpa using h), List.take_set_of_le (le_refl n)]; simp

/-- **`eraseMarkedElements`** keeps the elements that are not marked, in order. -/
theorem eraseMarkedElements_eq {α : Type} (dflt : α) (vals : List α) (marks : List Bool) (h : vals.length = marks.length) :
    eraseMarkedElements dflt vals marks = keep vals marks := by
  have key : ∀ m, m ≤ vals.length →
      let r := forRange m (fun i (st : List α × Nat) =>
        if marks.getD i false then st else (st.1.set st.2 (st.1.getD i dflt), st.2 + 1)) (vals, 0)
      r.2 ≤ m ∧ r.1.length = vals.length ∧ r.1.take r.2 = keep (vals.take m) (marks.take m) ∧ ∀ j, m ≤ j → r.1[j]? = vals[j]? := by
    intro m
    induction m with
    | zero => intro _; simp [forRange, keep]
    | succ m ih =>
      intro hm
      obtain ⟨i1, i2, i3, i4⟩ := ih (by omega)
      simp only at i1 i2 i3 i4 ⊢
      rw [forRange_succ]
      generalize forRange m (fun i (st : List α × Nat) =>
        if marks.getD i false then st else (st.1.set st.2 (st.1.getD i dflt), st.2 + 1)) (vals, 0) = r at *
      have hk : keep (vals.take (m + 1)) (marks.take (m + 1)) = keep (vals.take m) (marks.take m) ++ keep [vals[m]] [marks[m]] := by
        rw [List.take_succ_eq_append_getElem (by omega), List.take_succ_eq_append_getElem (by omega), keep_append _ _ _ _ (by simp; omega)]
      have hd : marks.getD m false = marks[m] := by simp [List.getD_eq_getElem?_getD, show m < marks.length by omega]
      rw [hk, hd]
      by_cases hb : marks[m] = true
      · rw [if_pos hb, hb]
        refine ⟨by omega, i2, ?_, fun j hj => i4 j (by omega)⟩
        simpa [keep] using i3
      · rw [if_neg hb]
        have hb' : marks[m] = false := by simpa using hb
        have hv : r.1.getD m dflt = vals[m] := by rw [List.getD_eq_getElem?_getD, i4 m le_rfl]; simp [show m < vals.length by omega]
        refine ⟨by simp; omega, by simpa using i2, ?_, ?_⟩
        · simp only []
          rw [hv, take_succ_set _ _ _ (by omega), i3, hb']; rfl
        · intro j hj
          simp only []
          rw [List.getElem?_set_ne (by omega)]; exact i4 j (by omega)
  have := key vals.length le_rfl
  obtain ⟨_, _, k, _⟩ := this
  rw [List.take_length, h, List.take_length, ← h] at k
  exact k

/-- The marks of the vertices. -/
def vmarks (mark : List Nat) : Nat → List (Poly K) → List Bool
  | _, [] => []
  | p, q :: ps => List.replicate q.verts.length (mark.contains p) ++ vmarks mark (p + 1) ps

/-- The marks of the polygons. -/
def pmarks (mark : List Nat) : Nat → List (Poly K) → List Bool
  | _, [] => []
  | p, _ :: ps => mark.contains p :: pmarks mark (p + 1) ps

theorem set_true (A C : List Bool) (n : Nat) :
    forRange n (fun v (dm : List Bool) => dm.set (A.length + v) true) (A ++ List.replicate n false ++ C) = A ++ List.replicate n true ++ C := by
  induction n generalizing A with
  | zero => rfl
  | succ n ih =>
    rw [forRange_succ']
    have := ih (A ++ [true])
    simp only [List.length_append, List.length_cons, List.length_nil, List.append_assoc, List.cons_append, List.nil_append] at this
    simp only [List.replicate_succ, List.append_assoc, List.cons_append]
    have e : (A ++ false :: (List.replicate n false ++ C)).set (A.length + 0) true = A ++ true :: (List.replicate n false ++ C) := by simp
    rw [e, ← this]
    congr 1; funext v dm; congr 1; omega

theorem marks_loop (mark : List Nat) (ps : List (Poly K)) : ∀ (A B : List Bool),
    polyLoop (fun p s n (st : List Bool × List Bool) =>
      if mark.contains p then (forRange n (fun v (dm : List Bool) => dm.set (s + v) true) st.1, st.2.set p true) else st)
      B.length A.length (ps.map (·.verts.length))
      (A ++ List.replicate (ps.map (·.verts.length)).sum false, B ++ List.replicate ps.length false)
    = (A ++ vmarks mark B.length ps, B ++ pmarks mark B.length ps) := by
  induction ps with
  | nil => intro A B; simp [polyLoop, vmarks, pmarks]
  | cons q ps ih =>
    intro A B
    rw [List.map_cons, polyLoop, List.sum_cons, List.replicate_add, List.length_cons, List.replicate_succ]
    have := ih (A ++ List.replicate q.verts.length (mark.contains B.length)) (B ++ [mark.contains B.length])
    simp only [List.length_append, List.length_replicate, List.length_cons, List.length_nil] at this
    simp only [vmarks, pmarks]
    by_cases hm : mark.contains B.length = true
    · rw [if_pos hm, ← List.append_assoc, set_true]
      have e : (B ++ false :: List.replicate ps.length false).set B.length true = B ++ [true] ++ List.replicate ps.length false := by simp
      rw [e]
      rw [hm] at this ⊢
      rw [this]; simp
    · rw [if_neg hm]
      have hm' : mark.contains B.length = false := by simpa using hm
      rw [hm'] at this ⊢
      rw [← List.append_assoc, show B ++ false :: List.replicate ps.length false = (B ++ [false]) ++ List.replicate ps.length false by simp]
      rw [this]; simp

theorem vmarks_length (mark : List Nat) (ps : List (Poly K)) (p : Nat) : (vmarks mark p ps).length = (ps.flatMap (·.verts)).length := by
  induction ps generalizing p with
  | nil => rfl
  | cons q ps ih => simp only [vmarks, List.length_append, List.length_replicate, List.flatMap_cons]; rw [ih]

theorem pmarks_length (mark : List Nat) (ps : List (Poly K)) (p : Nat) : (pmarks mark p ps).length = ps.length := by
  induction ps generalizing p with
  | nil => rfl
  | cons q ps ih => simp only [pmarks, List.length_cons]; rw [ih]

theorem keep_verts (mark : List Nat) (ps : List (Poly K)) (p : Nat) :
    keep (ps.flatMap (·.verts)) (vmarks mark p ps) = (keep ps (pmarks mark p ps)).flatMap (·.verts) := by
  induction ps generalizing p with
  | nil => rfl
  | cons q ps ih =>
    simp only [vmarks, pmarks, List.flatMap_cons, keep]
    rw [keep_append _ _ _ _ (by simp), keep_replicate, ih]
    split <;> simp

theorem keep_polys (mark : List Nat) (ps : List (Poly K)) (p : Nat) :
    keep ps (pmarks mark p ps) = ((ps.zipIdx p).filter fun q => q.2 ∉ mark).map Prod.fst := by
  induction ps generalizing p with
  | nil => rfl
  | cons q ps ih =>
    simp only [pmarks, keep, List.zipIdx_cons, List.filter_cons]
    rw [ih]
    by_cases hm : p ∈ mark <;> simp [hm]

/-- The polygons of a list at places that are not marked. -/
def unmarked (mark : List Nat) (ps : List (Poly K)) : List (Poly K) := (ps.zipIdx.filter fun q => q.2 ∉ mark).map Prod.fst

variable [Field K] [LinearOrder K]

/-- **Erasing the marked polygons** takes out these, with their attributes, and leaves the others as they are, in order. -/
theorem eraseMarked_rep (d : DPoly K) (ps : List (Poly K)) (h : Rep d ps) (mark : List Nat) :
    Rep (eraseMarkedPolys mark d) (unmarked mark ps) ∧ (eraseMarkedPolys mark d).annos = d.annos := by
  refine ⟨?_, rfl⟩
  have hl := marks_loop mark ps [] []
  simp only [List.length_nil, List.nil_append] at hl
  have hk : keep ps (pmarks mark 0 ps) = unmarked mark ps := keep_polys mark ps 0
  have hx : ∀ (g : Pt K → K), eraseMarkedElements 0 ((ps.flatMap (·.verts)).map g) (vmarks mark 0 ps) = ((unmarked mark ps).flatMap (·.verts)).map g := by
    intro g
    rw [eraseMarkedElements_eq _ _ _ (by rw [vmarks_length, List.length_map]), keep_map, keep_verts, hk]
  have hp : ∀ {β : Type} (b : β) (g : Poly K → β), eraseMarkedElements b (ps.map g) (pmarks mark 0 ps) = (unmarked mark ps).map g := by
    intro β b g
    rw [eraseMarkedElements_eq _ _ _ (by rw [pmarks_length, List.length_map]), keep_map, hk]
  unfold eraseMarkedPolys
  rw [take_all d ps h, h.total, h.numPolys, h.xv, h.yv, h.numVerts, h.closed, h.colors, h.layers, hl]
  simp only [hx, hp]
  refine ⟨rfl, rfl, rfl, by simp, ?_, rfl, rfl, rfl⟩
  show (List.map Prod.fst _).length = _
  rw [List.length_map, length_flat]

theorem eraseOne_unmarked (ps : List (Poly K)) (p : Nat) : unmarked [p] ps = ps.eraseIdx p := by
  unfold unmarked
  have key : ∀ (ps : List (Poly K)) (k p : Nat), ((ps.zipIdx k).filter fun q => q.2 ∉ [k + p]).map Prod.fst = ps.eraseIdx p := by
    intro ps
    induction ps with
    | nil => intro k p; rfl
    | cons q ps ih =>
      intro k p
      rw [List.zipIdx_cons, List.filter_cons]
      cases p with
      | zero =>
        simp only [Nat.add_zero, List.mem_singleton, not_true_eq_false, decide_false, Bool.false_eq_true, if_false, List.eraseIdx_cons_zero]
        have : (ps.zipIdx (k + 1)).filter (fun q => decide (¬ q.2 = k)) = ps.zipIdx (k + 1) := by
          apply List.filter_eq_self.mpr
          rintro ⟨a, i⟩ hq
          have := List.le_snd_of_mem_zipIdx hq
          simp only at this
          simp; omega
        rw [this]
        simp
      | succ p =>
        have := ih (k + 1) p
        rw [if_pos (by simp), List.map_cons, List.eraseIdx_cons_succ, ← this]
        congr 3; funext q; congr 4; omega
  have := key ps 0 p
  rw [Nat.zero_add] at this
  exact this

/-- **Erasing one polygon.** -/
theorem eraseOne_rep (d : DPoly K) (ps : List (Poly K)) (h : Rep d ps) (p : Nat) : Rep (eraseOnePoly p d) (ps.eraseIdx p) := by
  rw [← eraseOne_unmarked]; exact (eraseMarked_rep d ps h [p]).1

/-- **Replacing the vertices of a polygon** leaves its attributes and the other polygons as they are. -/
theorem replaceOne_rep (d : DPoly K) (ps : List (Poly K)) (h : Rep d ps) (p : Nat) (hp : p < ps.length) (V : List (Pt K)) (x y : List K)
    (hx : x.take V.length = V.map Prod.fst) (hy : y.take V.length = V.map Prod.snd) :
    Rep (replaceOnePoly p V.length x y d) (ps.modify p (Poly.onVerts fun _ => V)) ∧ (replaceOnePoly p V.length x y d).annos = d.annos := by
  refine ⟨?_, rfl⟩
  have e : ∀ (g : Pt K → K) (z : List K), z.take V.length = V.map g →
      (let xs := List.map g ((ps.take p).flatMap (·.verts) ++ ps[p].verts ++ (ps.drop (p + 1)).flatMap (·.verts))
       let s := ((ps.take p).flatMap (·.verts)).length
       let w := xs.take s ++ xs.drop (s + ps[p].verts.length)
       w.take s ++ z.take V.length ++ w.drop s)
      = List.map g ((ps.take p).flatMap (·.verts) ++ V ++ (ps.drop (p + 1)).flatMap (·.verts)) := by
    intro g z hz
    simp only [hz, List.map_append]
    have hs : ((ps.take p).flatMap (·.verts)).length = (((ps.take p).flatMap (·.verts)).map g).length := by simp
    have hn : ps[p].verts.length = (ps[p].verts.map g).length := by simp
    rw [hs, hn]
    generalize (((ps.take p).flatMap (·.verts)).map g) = A
    generalize (ps[p].verts.map g) = B
    generalize (((ps.drop (p + 1)).flatMap (·.verts)).map g) = C
    rw [← List.length_append, List.drop_left, List.append_assoc A B C, List.take_left, List.take_left, List.drop_left]
  have ex := e Prod.fst x hx
  have ey := e Prod.snd y hy
  simp only at ex ey
  apply rep_modify d _ ps p hp _ h
  · simp only [replaceOnePoly]
    rw [start_rep d ps h, numVerts_getD d ps h p hp, xv_split d ps h p hp, ex]
  · simp only [replaceOnePoly]
    rw [start_rep d ps h, numVerts_getD d ps h p hp, yv_split d ps h p hp, ey]
  · rfl
  · simp only [replaceOnePoly]
    rw [start_rep d ps h, numVerts_getD d ps h p hp, xv_split d ps h p hp, ex, h.total, ← length_flat, flat_split ps p hp]
    simp only [List.length_map, List.length_append]; omega
  all_goals rfl

/-- **Setting the color, or whether polygons are closed**, sets it for all polygons. -/
theorem setAttr_rep (d : DPoly K) (ps : List (Poly K)) (h : Rep d ps) :
    (∀ c, Rep (setColor c d) (ps.map fun q => { q with color := c })) ∧ ∀ b, Rep (setClosed b d) (ps.map fun q => { q with closed := b }) := by
  constructor
  · intro c
    refine ⟨?_, ?_, ?_, ?_, ?_, ?_, ?_, ?_⟩
    · simp [setColor, h.xv, List.flatMap_map]
    · simp [setColor, h.yv, List.flatMap_map]
    · simp [setColor, h.numVerts, Function.comp_def]
    · simp [setColor, h.numPolys]
    · simp [setColor, h.total, Function.comp_def]
    · simp [setColor, h.closed, Function.comp_def]
    · simp [setColor, h.colors, h.numPolys, Function.comp_def]
    · simp [setColor, h.layers, Function.comp_def]
  · intro c
    refine ⟨?_, ?_, ?_, ?_, ?_, ?_, ?_, ?_⟩
    · simp [setClosed, h.xv, List.flatMap_map]
    · simp [setClosed, h.yv, List.flatMap_map]
    · simp [setClosed, h.numVerts, Function.comp_def]
    · simp [setClosed, h.numPolys]
    · simp [setClosed, h.total, Function.comp_def]
    · simp [setClosed, h.closed, h.numPolys, Function.comp_def]
    · simp [setClosed, h.colors, Function.comp_def]
    · simp [setClosed, h.layers, Function.comp_def]

/-! ### Cases -/

/-- A triangle and a line. -/
def exA : List (Poly ℚ) := [⟨[(0, 0), (1, 0), (0, 1)], true, "red", "1:0"⟩, ⟨[(5, 5), (6, 6)], false, "blue", ""⟩]
def exD : DPoly ℚ := ⟨false, [0, 1, 0, 5, 6], [0, 0, 1, 5, 6], [3, 2], 2, 5, [true, false], ["red", "blue"], ["1:0", ""], [⟨1, 2, "a"⟩], [], [], []⟩
theorem exA_rep : Rep exD exA := by constructor <;> rfl
example : Rep (eraseMarkedPolys [0] exD) [⟨[(5, 5), (6, 6)], false, "blue", ""⟩] := (eraseMarked_rep exD exA exA_rep [0]).1
example : (insertVertex 1 1 9 8 exD).xv = [0, 1, 0, 5, 9, 6] ∧ (insertVertex 1 1 9 8 exD).numVerts = [3, 3] := by decide +kernel
example : (shiftEdge 0 2 10 20 exD).xv = [10, 1, 10, 5, 6] ∧ (shiftEdge 0 2 10 20 exD).yv = [20, 0, 21, 5, 6] := by decide +kernel
example : (reverse exD).xv = [0, 1, 0, 6, 5] ∧ (reverse exD).yv = [1, 0, 0, 6, 5] := by decide +kernel
example : (appendAndShiftMarkedPolys [1] 1 1 exD).1.numVerts = [3, 2, 2] ∧ (appendAndShiftMarkedPolys [1] 1 1 exD).2 = [2] := by decide +kernel

end Verif.Geom.Polys
