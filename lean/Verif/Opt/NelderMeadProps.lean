import Verif.Opt.NelderMead
import Mathlib.Data.Rat.Defs
import Mathlib.Algebra.Order.Ring.Rat
import Mathlib.Tactic.Linarith
import Mathlib.Tactic.Tauto
import Mathlib.Tactic.ByContra
import Mathlib.Tactic.Ring
import Mathlib.Tactic.FieldSimp

/-
C86: Nelder-Mead minimisation.
-/

namespace Verif.Opt

set_option linter.unusedSectionVars false

variable {R : Type} [Add R] [Sub R] [Mul R] [Div R] [Neg R] [NatCast R] [LinearOrder R]

/-! ## Specification -/

/-- Consecutive updates of a simplex. -/
inductive Steps (f : List R → R) : List (Vertex R) → List (Step R) → Prop
  | nil (s) : Steps f s []
  | cons (s st sts) : update f s = some st → Steps f st.simplex sts → Steps f s (st :: sts)

/-- The simplex after the updates. -/
def finalSimplex (s : List (Vertex R)) (sts : List (Step R)) : List (Vertex R) :=
  (sts.getLast?.map Step.simplex).getD s

/-- The corners of the first simplex: the seed, and the seed moved along each axis. -/
def corner (seed scale : List R) (p : List R) : Prop :=
  p = seed ∨ ∃ (i : Nat) (x y : R), seed[i]? = some x ∧ scale[i]? = some y ∧ p = seed.set i (x + y)

/-! ## Insertion -/

theorem mem_insertVertex (v w : Vertex R) (s : List (Vertex R)) : w ∈ insertVertex v s ↔ w = v ∨ w ∈ s := by
  induction s with
  | nil => simp [insertVertex]
  | cons x xs ih =>
    unfold insertVertex
    by_cases h : v.2 < x.2
    · rw [if_pos h]; simp only [List.mem_cons, ih]; tauto
    · rw [if_neg h]; simp only [List.mem_cons]

theorem length_insertVertex (v : Vertex R) (s : List (Vertex R)) : (insertVertex v s).length = s.length + 1 := by
  induction s with
  | nil => simp [insertVertex]
  | cons x xs ih =>
    unfold insertVertex
    by_cases h : v.2 < x.2
    · rw [if_pos h]; simp [ih]
    · rw [if_neg h]; simp

/-- Costs do not increase along the list. -/
def Sorted (s : List (Vertex R)) : Prop := s.Pairwise (fun a b => b.2 ≤ a.2)

theorem Sorted.insert {s : List (Vertex R)} (hs : Sorted s) (v : Vertex R) : Sorted (insertVertex v s) := by
  induction s with
  | nil => simp [insertVertex, Sorted]
  | cons x xs ih =>
    unfold insertVertex
    have hx := List.pairwise_cons.1 hs
    by_cases h : v.2 < x.2
    · rw [if_pos h]
      refine List.pairwise_cons.2 ⟨fun w hw => ?_, ih hx.2⟩
      rcases (mem_insertVertex _ _ _).1 hw with e | e
      · exact e ▸ h.le
      · exact hx.1 _ e
    · rw [if_neg h]
      refine List.pairwise_cons.2 ⟨fun w hw => ?_, hs⟩
      rcases List.mem_cons.1 hw with e | e
      · exact e ▸ not_lt.1 h
      · exact (hx.1 _ e).trans (not_lt.1 h)

/-- The last vertex after an insertion into a nonempty list, whether sorted or not: it is the old last one, or the new
one and that costs less. -/
theorem last_insertVertex (v : Vertex R) (s : List (Vertex R)) (l : Vertex R) (hl : s.getLast? = some l) :
    (insertVertex v s).getLast? = some l ∨ ((insertVertex v s).getLast? = some v ∧ v.2 < l.2) := by
  induction s with
  | nil => simp at hl
  | cons x xs ih =>
    unfold insertVertex
    by_cases h : v.2 < x.2
    · rw [if_pos h]
      cases xs with
      | nil =>
        simp at hl
        right
        simp [insertVertex]
        exact hl ▸ h
      | cons y ys =>
        rw [List.getLast?_cons_cons] at hl
        have hne : insertVertex v (y :: ys) ≠ [] := by
          intro e
          have := length_insertVertex v (y :: ys)
          rw [e] at this
          simp at this
        obtain ⟨z, zs, hz⟩ := List.exists_cons_of_ne_nil hne
        have := ih hl
        rw [hz] at this ⊢
        rw [List.getLast?_cons_cons]
        exact this
    · rw [if_neg h]
      left
      rw [List.getLast?_cons_cons]
      exact hl

theorem Sorted.last_le {s : List (Vertex R)} (hs : Sorted s) {l : Vertex R} (hl : s.getLast? = some l) :
    ∀ w ∈ s, l.2 ≤ w.2 := by
  induction s with
  | nil => simp at hl
  | cons x xs ih =>
    intro w hw
    have hx := List.pairwise_cons.1 hs
    cases xs with
    | nil =>
      simp at hl hw
      subst hl hw; exact le_refl _
    | cons y ys =>
      rw [List.getLast?_cons_cons] at hl
      rcases List.mem_cons.1 hw with e | e
      · subst e
        exact hx.1 _ (List.mem_of_mem_getLast? hl)
      · exact ih hx.2 hl w e

/-! ## The first simplex -/

/-- What every simplex satisfies. -/
structure Wf (f : List R → R) (n : Nat) (s : List (Vertex R)) : Prop where
  card : s.length = n + 1
  cost : ∀ w ∈ s, w.2 = f w.1
  dim : ∀ w ∈ s, w.1.length = n

theorem mk_fold (f : List R → R) (seed scales : List R) (hl : scales.length = seed.length) (k : Nat)
    (hk : k ≤ seed.length) :
    let s := (List.range k).foldl
      (fun vs i =>
        let p := seed.modify i (fun x => x + scales[i]?.getD x)
        insertVertex (p, f p) vs)
      [(seed, f seed)]
    Sorted s ∧ s.length = k + 1 ∧ (seed, f seed) ∈ s ∧
      (∀ w ∈ s, w.2 = f w.1 ∧ w.1.length = seed.length ∧ corner seed scales w.1) ∧
      (∀ (i : Nat) x y, i < k → seed[i]? = some x → scales[i]? = some y →
        (seed.set i (x + y), f (seed.set i (x + y))) ∈ s) := by
  induction k with
  | zero => simp [Sorted, corner]
  | succ k ih =>
    obtain ⟨h1, h2, h3, h4, h5⟩ := ih (by omega)
    have hk' : k < seed.length := by omega
    have hk2 : k < scales.length := by omega
    intro s
    have es : seed.modify k (fun x => x + scales[k]?.getD x) = seed.set k (seed[k] + scales[k]) := by
      apply List.ext_getElem?
      intro j
      rw [List.getElem?_modify, List.getElem?_set]
      by_cases e : k = j
      · subst e
        simp [hk', hk2]
      · simp [e]
    have e : s = insertVertex (seed.set k (seed[k] + scales[k]), f (seed.set k (seed[k] + scales[k])))
        ((List.range k).foldl
      (fun vs i =>
        let p := seed.modify i (fun x => x + scales[i]?.getD x)
        insertVertex (p, f p) vs)
      [(seed, f seed)]) := by
      show (List.range (k + 1)).foldl _ _ = _
      rw [List.range_succ, List.foldl_append, List.foldl_cons, List.foldl_nil]
      simp only [es]
    rw [e]
    refine ⟨h1.insert _, by rw [length_insertVertex, h2], (mem_insertVertex _ _ _).2 (Or.inr h3), ?_, ?_⟩
    · intro w hw
      rcases (mem_insertVertex _ _ _).1 hw with e | e
      · subst e
        refine ⟨rfl, by simp, Or.inr ⟨k, seed[k], scales[k], by simp, by simp, rfl⟩⟩
      · exact h4 w e
    · intro i x y hi hx hy
      rcases Nat.lt_succ_iff_lt_or_eq.1 hi with h | h
      · exact (mem_insertVertex _ _ _).2 (Or.inr (h5 i x y h hx hy))
      · subst h
        rw [List.getElem?_eq_getElem hk'] at hx
        rw [List.getElem?_eq_getElem hk2] at hy
        cases hx; cases hy
        exact (mem_insertVertex _ _ _).2 (Or.inl rfl)

/-- The first simplex consists of the seed and the seed moved along each axis, with their costs, ordered. -/
theorem mkSimplex_spec (f : List R → R) (seed scales : List R) (s : List (Vertex R))
    (h : mkSimplex f seed scales = some s) :
    Wf f seed.length s ∧ Sorted s ∧ (∀ p, corner seed scales p ↔ (p, f p) ∈ s) := by
  unfold mkSimplex at h
  by_cases hl : scales.length = seed.length
  · rw [if_pos hl] at h
    obtain ⟨h1, h2, h3, h4, h5⟩ := mk_fold f seed scales hl seed.length le_rfl
    have hs := Option.some.inj h
    rw [hs] at h1 h2 h3 h4 h5
    refine ⟨⟨h2, fun w hw => (h4 w hw).1, fun w hw => (h4 w hw).2.1⟩, h1, fun p => ⟨?_, fun hp => (h4 _ hp).2.2⟩⟩
    rintro (e | ⟨i, x, y, hx, hy, e⟩)
    · exact e ▸ h3
    · subst e
      refine h5 i x y ?_ hx hy
      by_contra hc
      rw [List.getElem?_eq_none (by omega)] at hx
      cases hx
  · rw [if_neg hl] at h; cases h

/-! ## Updates -/

theorem update_some (f : List R → R) (h v : Vertex R) (vs : List (Vertex R)) :
    ∃ st, update f (h :: v :: vs) = some st := by
  simp only [update]
  exact ⟨_, (apply_ite some _ _ _).symm⟩

theorem length_zip_op (g : R → R → R) (a b : List R) (n : Nat) (ha : a.length = n) (hb : b.length = n) :
    (List.zipWith g a b).length = n := by simp [ha, hb]

theorem length_mean (n : Nat) (s : List (Vertex R)) (hs : ∀ w ∈ s, w.1.length = n) (hne : s ≠ []) :
    (meanLocation s).length = n := by
  cases s with
  | nil => exact absurd rfl hne
  | cons v vs =>
    simp only [meanLocation, vdiv, List.length_map]
    have hv := hs v (List.mem_cons_self)
    have hvs : ∀ w ∈ vs, w.1.length = n := fun w hw => hs w (List.mem_cons_of_mem _ hw)
    clear hs hne
    generalize hacc : v.1 = acc at hv
    clear hacc v
    induction vs generalizing acc with
    | nil => exact hv
    | cons w ws ih =>
      rw [List.foldl_cons]
      exact ih (fun u hu => hvs u (List.mem_cons_of_mem _ hu)) _
        (length_zip_op _ _ _ _ hv (hvs w List.mem_cons_self))

/-- What a step of the simplex does, in terms of the vertex removed, the rest and the vertex added. -/
theorem update_cases (f : List R → R) (n : Nat) (h v : Vertex R) (vs : List (Vertex R)) (st : Step R)
    (hw : Wf f n (h :: v :: vs)) (hu : update f (h :: v :: vs) = some st) :
    ∃ p : List R, p.length = n ∧ p ∈ st.evals ∧ st.delta = h.2 - f p ∧
      ((st.shrank = false ∧ st.simplex = insertVertex (p, f p) (v :: vs) ∧ f p ≤ v.2 ∧
          ∀ q ∈ st.evals, f p ≤ f q ∨ v.2 ≤ f q ∨ ((v :: vs).getLast (by simp)).2 ≤ f q) ∨
       (st.shrank = true ∧ st.simplex = insertVertex (p, f p) ((v :: vs).dropLast.map (fun w =>
          let p := vmul half (vadd w.1 ((v :: vs).getLast (by simp)).1)
          (p, f p)) ++ [(v :: vs).getLast (by simp)]))) := by
  have hdim : ∀ w ∈ v :: vs, w.1.length = n := fun w hw' => hw.dim w (List.mem_cons_of_mem _ hw')
  have hh : h.1.length = n := hw.dim h List.mem_cons_self
  have hm : (meanLocation (v :: vs)).length = n := length_mean n _ hdim (by simp)
  have hlow : ((v :: vs).getLast (by simp)).1.length = n := hdim _ (List.getLast_mem _)
  simp only [update] at hu
  generalize hM : meanLocation (v :: vs) = m at hu hm
  generalize hL : (v :: vs).getLast (by simp) = low at hu hlow ⊢
  generalize hp0 : vsub (vmul (num 2) m) h.1 = p0 at hu
  generalize hq : vsub (vmul (num 3) m) (vmul (num 2) h.1) = q at hu
  generalize hp1 : (if f p0 < low.2 ∧ f q < f p0 then q else p0) = p1 at hu
  generalize hp2 : (if v.2 < f p1 then vsub (vmul oneAndHalf m) (vmul half h.1) else p1) = p2 at hu
  generalize hp3 : (if v.2 < f p2 then vmul half (vadd m h.1) else p2) = p3 at hu
  generalize he1 : (if f p0 < low.2 then [p0] ++ [q] else [p0]) = e1 at hu
  generalize he2 : (if v.2 < f p1 then e1 ++ [p2] else e1) = e2 at hu
  generalize he3 : (if v.2 < f p2 then e2 ++ [p3] else e2) = e3 at hu
  have l0 : p0.length = n := by rw [← hp0]; exact length_zip_op _ _ _ _ (by simp [vmul, hm]) hh
  have lq : q.length = n := by rw [← hq]; exact length_zip_op _ _ _ _ (by simp [vmul, hm]) (by simp [vmul, hh])
  have l1 : p1.length = n := by
    rw [← hp1]; split
    · exact lq
    · exact l0
  have l2 : p2.length = n := by
    rw [← hp2]; split
    · exact length_zip_op _ _ _ _ (by simp [vmul, hm]) (by simp [vmul, hh])
    · exact l1
  have l3 : p3.length = n := by
    rw [← hp3]; split
    · simp only [vmul, List.length_map]
      exact length_zip_op _ _ _ _ hm hh
    · exact l2
  have m1 : p1 ∈ e1 := by
    rw [← hp1, ← he1]
    by_cases c : f p0 < low.2
    · rw [if_pos c]
      split <;> simp
    · rw [if_neg c, if_neg (fun x => c x.1)]; simp
  have m2 : p2 ∈ e2 := by
    rw [← he2]
    by_cases c : v.2 < f p1
    · rw [if_pos c]; simp
    · rw [if_neg c]
      rw [if_neg c] at hp2
      exact hp2 ▸ m1
  have m3 : p3 ∈ e3 := by
    rw [← he3]
    by_cases c : v.2 < f p2
    · rw [if_pos c]; simp
    · rw [if_neg c]
      rw [if_neg c] at hp3
      exact hp3 ▸ m2
  have b1 : ∀ x ∈ e1, f p1 ≤ f x ∨ low.2 ≤ f x := by
    intro x hx
    rw [← he1] at hx
    by_cases c : f p0 < low.2
    · rw [if_pos c] at hx
      by_cases d : f q < f p0
      · rw [if_pos ⟨c, d⟩] at hp1
        subst hp1
        simp at hx
        rcases hx with e | e
        · subst e; exact Or.inl d.le
        · subst e; exact Or.inl le_rfl
      · rw [if_neg (fun x => d x.2)] at hp1
        subst hp1
        simp at hx
        rcases hx with e | e
        · subst e; exact Or.inl le_rfl
        · subst e; exact Or.inl (not_lt.1 d)
    · rw [if_neg c] at hx
      rw [if_neg (fun x => c x.1)] at hp1
      subst hp1
      simp at hx
      subst hx; exact Or.inl le_rfl
  have b2 : ∀ x ∈ e2, f p2 ≤ f x ∨ v.2 ≤ f x ∨ low.2 ≤ f x := by
    intro x hx
    rw [← he2] at hx
    by_cases c : v.2 < f p1
    · rw [if_pos c] at hx
      rcases List.mem_append.1 hx with e | e
      · rcases b1 x e with k | k
        · exact Or.inr (Or.inl (c.le.trans k))
        · exact Or.inr (Or.inr k)
      · simp at e; subst e; exact Or.inl le_rfl
    · rw [if_neg c] at hx hp2
      subst hp2
      rcases b1 x hx with k | k
      · exact Or.inl k
      · exact Or.inr (Or.inr k)
  have b3 : ∀ x ∈ e3, f p3 ≤ f x ∨ v.2 ≤ f x ∨ low.2 ≤ f x := by
    intro x hx
    rw [← he3] at hx
    by_cases c : v.2 < f p2
    · rw [if_pos c] at hx
      rcases List.mem_append.1 hx with e | e
      · rcases b2 x e with k | k | k
        · exact Or.inr (Or.inl (c.le.trans k))
        · exact Or.inr (Or.inl k)
        · exact Or.inr (Or.inr k)
      · simp at e; subst e; exact Or.inl le_rfl
    · rw [if_neg c] at hx hp3
      subst hp3
      exact b2 x hx
  by_cases c : v.2 < f p3
  · rw [if_pos c] at hu
    cases hu
    refine ⟨vmul half (vadd h.1 low.1), ?_, by simp, rfl, Or.inr ⟨rfl, rfl⟩⟩
    simp only [vmul, List.length_map]
    exact length_zip_op _ _ _ _ hh hlow
  · rw [if_neg c] at hu
    cases hu
    exact ⟨p3, l3, m3, rfl, Or.inl ⟨rfl, rfl, not_lt.1 c, b3⟩⟩

/-- An update keeps the number of vertices, their dimension and the recorded costs right. -/
theorem update_wf (f : List R → R) (n : Nat) (s : List (Vertex R)) (st : Step R)
    (hw : Wf f n s) (hu : update f s = some st) : Wf f n st.simplex := by
  match s, hw, hu with
  | h :: v :: vs, hw, hu =>
    have hc := hw.card
    simp only [List.length_cons] at hc
    obtain ⟨p, hp, -, -, ⟨-, hs, -⟩ | ⟨-, hs⟩⟩ := update_cases f n h v vs st hw hu
    · rw [hs]
      refine ⟨by rw [length_insertVertex]; simp only [List.length_cons]; omega, fun w hw' => ?_, fun w hw' => ?_⟩
      · rcases (mem_insertVertex _ _ _).1 hw' with e | e
        · subst e; rfl
        · exact hw.cost w (List.mem_cons_of_mem _ e)
      · rcases (mem_insertVertex _ _ _).1 hw' with e | e
        · subst e; exact hp
        · exact hw.dim w (List.mem_cons_of_mem _ e)
    · rw [hs]
      have hdim : ∀ w ∈ v :: vs, w.1.length = n := fun w hw' => hw.dim w (List.mem_cons_of_mem _ hw')
      have hlowm : (v :: vs).getLast (by simp) ∈ v :: vs := List.getLast_mem _
      refine ⟨by rw [length_insertVertex]; simp; omega, fun w hw' => ?_, fun w hw' => ?_⟩
      · rcases (mem_insertVertex _ _ _).1 hw' with e | e
        · subst e; rfl
        · rcases List.mem_append.1 e with e | e
          · obtain ⟨u, hu, rfl⟩ := List.mem_map.1 e
            rfl
          · rw [List.mem_singleton.1 e]
            exact hw.cost _ (List.mem_cons_of_mem _ hlowm)
      · rcases (mem_insertVertex _ _ _).1 hw' with e | e
        · subst e; exact hp
        · rcases List.mem_append.1 e with e | e
          · obtain ⟨u, hu, rfl⟩ := List.mem_map.1 e
            simp only [vmul, List.length_map]
            exact length_zip_op _ _ _ _ (hdim _ (List.dropLast_subset _ hu)) (hdim _ hlowm)
          · rw [List.mem_singleton.1 e]
            exact hdim _ hlowm

/-- An update never increases the cost of the vertex that `location()` and `value()` report. -/
theorem update_value (f : List R → R) (n : Nat) (s : List (Vertex R)) (st : Step R)
    (hw : Wf f n s) (hu : update f s = some st) (x : R) (hx : value s = some x) :
    ∃ y, value st.simplex = some y ∧ y ≤ x := by
  match s, hw, hu with
  | h :: v :: vs, hw, hu =>
    have hl : (h :: v :: vs).getLast? = some ((v :: vs).getLast (by simp)) := by
      rw [List.getLast?_cons_cons, List.getLast?_eq_some_getLast (by simp)]
    simp only [value, hl, Option.map_some, Option.some.injEq] at hx
    obtain ⟨p, hp, -, -, ⟨-, hs, -⟩ | ⟨-, hs⟩⟩ := update_cases f n h v vs st hw hu
    · rw [hs]
      rcases last_insertVertex (p, f p) (v :: vs) _ (List.getLast?_eq_some_getLast (by simp)) with e | ⟨e, e'⟩
      · exact ⟨x, by rw [value, e, Option.map_some, hx], le_rfl⟩
      · exact ⟨f p, by rw [value, e]; rfl, hx ▸ e'.le⟩
    · rw [hs]
      rcases last_insertVertex (p, f p) ((v :: vs).dropLast.map (fun w =>
          let p := vmul half (vadd w.1 ((v :: vs).getLast (by simp)).1)
          (p, f p)) ++ [(v :: vs).getLast (by simp)]) ((v :: vs).getLast (by simp)) (by simp) with e | ⟨e, e'⟩
      · exact ⟨x, by rw [value, e, Option.map_some, hx], le_rfl⟩
      · exact ⟨f p, by rw [value, e]; rfl, hx ▸ e'.le⟩

/-- As long as the whole simplex is not shrunk, the vertices stay ordered, and what is reported costs no more than any
point at which the function was evaluated in the update, or was reported before. -/
theorem update_sorted (f : List R → R) (n : Nat) (s : List (Vertex R)) (st : Step R)
    (hw : Wf f n s) (hs : Sorted s) (hu : update f s = some st) (hn : st.shrank = false) (y : R)
    (hy : value st.simplex = some y) : Sorted st.simplex ∧ ∀ q ∈ st.evals, y ≤ f q := by
  match s, hw, hs, hu with
  | h :: v :: vs, hw, hs, hu =>
    obtain ⟨p, hp, -, -, ⟨-, hs', hv, he⟩ | ⟨hs', -⟩⟩ := update_cases f n h v vs st hw hu
    · have hso := (List.pairwise_cons.1 hs).2
      have hsi : Sorted (insertVertex (p, f p) (v :: vs)) := Sorted.insert hso _
      rw [hs']
      refine ⟨hsi, fun q hq => ?_⟩
      rw [hs', value] at hy
      obtain ⟨l, hl, rfl⟩ := Option.map_eq_some_iff.1 hy
      have hle := hsi.last_le hl
      rcases he q hq with k | k | k
      · exact (hle _ ((mem_insertVertex _ _ _).2 (Or.inl rfl))).trans k
      · exact (hle v ((mem_insertVertex _ _ _).2 (Or.inr List.mem_cons_self))).trans k
      · exact (hle _ ((mem_insertVertex _ _ _).2 (Or.inr (List.getLast_mem (by simp))))).trans k
    · rw [hn] at hs'; cases hs'

/-! ## The points tried, in exact arithmetic -/

section Exact

variable {K : Type} [Field K] [LinearOrder K]

/-- The `i`-th coordinate of a point. -/
def coord (p : List K) (i : Nat) : K := p.getD i 0

/-- The `i`-th coordinate of the centroid of some points. -/
def centroid (s : List (Vertex K)) (i : Nat) : K := (s.map (fun w => coord w.1 i)).sum / (s.length : K)

theorem coord_zip (g : K → K → K) (a b : List K) (n i : Nat) (ha : a.length = n) (hb : b.length = n) (hi : i < n) :
    coord (List.zipWith g a b) i = g (coord a i) (coord b i) := by
  simp [coord, List.getD_eq_getElem?_getD, ha, hb, hi]

theorem coord_map (g : K → K) (a : List K) (i : Nat) (hi : i < a.length) :
    coord (a.map g) i = g (coord a i) := by
  simp [coord, List.getD_eq_getElem?_getD, hi]

theorem coord_mean (n : Nat) (s : List (Vertex K)) (hs : ∀ w ∈ s, w.1.length = n) (hne : s ≠ []) (i : Nat)
    (hi : i < n) : coord (meanLocation s) i = centroid s i := by
  cases s with
  | nil => exact absurd rfl hne
  | cons v vs =>
    have hv := hs v (List.mem_cons_self)
    have hvs : ∀ w ∈ vs, w.1.length = n := fun w hw => hs w (List.mem_cons_of_mem _ hw)
    have key : ∀ (vs : List (Vertex K)) (acc : List K), acc.length = n → (∀ w ∈ vs, w.1.length = n) →
        (vs.foldl (fun acc w => vadd acc w.1) acc).length = n ∧
        coord (vs.foldl (fun acc w => vadd acc w.1) acc) i = coord acc i + (vs.map (fun w => coord w.1 i)).sum := by
      intro vs
      induction vs with
      | nil => intro acc ha _; exact ⟨ha, by simp⟩
      | cons w ws ih =>
        intro acc ha hw
        have hw0 := hw w List.mem_cons_self
        obtain ⟨h1, h2⟩ := ih (vadd acc w.1) (length_zip_op _ _ _ _ ha hw0)
          (fun u hu => hw u (List.mem_cons_of_mem _ hu))
        refine ⟨h1, ?_⟩
        rw [List.foldl_cons, h2, List.map_cons, List.sum_cons, ← add_assoc]
        congr 1
        exact coord_zip _ _ _ n i ha hw0 hi
    obtain ⟨h1, h2⟩ := key vs v.1 hv hvs
    simp only [meanLocation, vdiv]
    rw [coord_map _ _ i (by rw [h1]; exact hi), h2]
    simp [centroid]

/-- **C86.** The points tried lie on the line through the highest vertex and the centroid `m` of the others, at
`m + t (m - h)` for `t` one of 1 (reflect), 2 (extend), 1/2 (reflect and shrink) and -1/2 (shrink); when the whole simplex
is shrunk the vertices other than the lowest move half the way to it. -/
theorem nm_points (f : List K → K) (h2 : (2 : K) ≠ 0) (n : Nat) (h v : Vertex K) (vs : List (Vertex K)) (st : Step K)
    (hw : Wf f n (h :: v :: vs)) (hu : update f (h :: v :: vs) = some st) :
    ∀ q ∈ st.evals,
      (∃ t : K, (t = 1 ∨ t = 2 ∨ t = 1 / 2 ∨ t = - (1 / 2)) ∧ ∀ i < n,
        coord q i = centroid (v :: vs) i + t * (centroid (v :: vs) i - coord h.1 i)) ∨
      (st.shrank = true ∧ ∃ w ∈ h :: v :: vs, ∀ i < n,
        coord q i = (coord w.1 i + coord ((v :: vs).getLast (by simp)).1 i) / 2) := by
  have hdim : ∀ w ∈ v :: vs, w.1.length = n := fun w hw' => hw.dim w (List.mem_cons_of_mem _ hw')
  have hh : h.1.length = n := hw.dim h List.mem_cons_self
  have hm : (meanLocation (v :: vs)).length = n := length_mean n _ hdim (by simp)
  have hlow : ((v :: vs).getLast (by simp)).1.length = n := hdim _ (List.getLast_mem _)
  have hc : ∀ i < n, coord (meanLocation (v :: vs)) i = centroid (v :: vs) i :=
    fun i hi => coord_mean n _ hdim (by simp) i hi
  simp only [update] at hu
  generalize hM : meanLocation (v :: vs) = m at hu hm hc
  generalize hL : (v :: vs).getLast (by simp) = low at hu hlow ⊢
  generalize hp0 : vsub (vmul (num 2) m) h.1 = p0 at hu
  generalize hq : vsub (vmul (num 3) m) (vmul (num 2) h.1) = q at hu
  generalize hp1 : (if f p0 < low.2 ∧ f q < f p0 then q else p0) = p1 at hu
  generalize ht2 : vsub (vmul oneAndHalf m) (vmul half h.1) = t2 at hu
  generalize hp2 : (if v.2 < f p1 then t2 else p1) = p2 at hu
  generalize ht3 : vmul half (vadd m h.1) = t3 at hu
  generalize hp3 : (if v.2 < f p2 then t3 else p2) = p3 at hu
  generalize he1 : (if f p0 < low.2 then [p0] ++ [q] else [p0]) = e1 at hu
  generalize he2 : (if v.2 < f p1 then e1 ++ [p2] else e1) = e2 at hu
  generalize he3 : (if v.2 < f p2 then e2 ++ [p3] else e2) = e3 at hu
  have c0 : ∀ i < n, coord p0 i = centroid (v :: vs) i + 1 * (centroid (v :: vs) i - coord h.1 i) := by
    intro i hi
    rw [← hp0, vsub, coord_zip _ _ _ n i (by simp [vmul, hm]) hh hi, vmul, coord_map _ _ i (by omega), hc i hi]
    simp only [num]; push_cast; ring
  have cq : ∀ i < n, coord q i = centroid (v :: vs) i + 2 * (centroid (v :: vs) i - coord h.1 i) := by
    intro i hi
    rw [← hq, vsub, coord_zip _ _ _ n i (by simp [vmul, hm]) (by simp [vmul, hh]) hi, vmul, vmul,
      coord_map _ _ i (by omega), coord_map _ _ i (by omega), hc i hi]
    simp only [num]; push_cast; ring
  have c2 : ∀ i < n, coord t2 i = centroid (v :: vs) i + (1 / 2) * (centroid (v :: vs) i - coord h.1 i) := by
    intro i hi
    rw [← ht2, vsub, coord_zip _ _ _ n i (by simp [vmul, hm]) (by simp [vmul, hh]) hi, vmul, vmul,
      coord_map _ _ i (by omega), coord_map _ _ i (by omega), hc i hi]
    simp only [num, oneAndHalf, half]; push_cast; field_simp; ring
  have c3 : ∀ i < n, coord t3 i = centroid (v :: vs) i + (- (1 / 2)) * (centroid (v :: vs) i - coord h.1 i) := by
    intro i hi
    rw [← ht3, vmul, coord_map _ _ i (by rw [vadd, length_zip_op _ _ _ n hm hh]; exact hi), vadd,
      coord_zip _ _ _ n i hm hh hi, hc i hi]
    simp only [num, half]; push_cast; field_simp; ring
  have m1 : ∀ x ∈ e1, x = p0 ∨ x = q := by
    intro x hx
    rw [← he1] at hx
    split at hx
    · simpa using hx
    · exact Or.inl (by simpa using hx)
  have m1' : p1 = p0 ∨ p1 = q := by
    rw [← hp1]; split
    · exact Or.inr rfl
    · exact Or.inl rfl
  have m2' : p2 = t2 ∨ p2 = p1 := by
    rw [← hp2]; split
    · exact Or.inl rfl
    · exact Or.inr rfl
  have m3' : p3 = t3 ∨ p3 = p2 := by
    rw [← hp3]; split
    · exact Or.inl rfl
    · exact Or.inr rfl
  have m3 : ∀ x ∈ e3, x = p0 ∨ x = q ∨ x = t2 ∨ x = t3 := by
    intro x hx
    rw [← he3] at hx
    have hx' : x ∈ e2 ∨ x = p3 := by
      split at hx
      · simpa using hx
      · exact Or.inl hx
    rw [← he2] at hx'
    have hx'' : (x ∈ e1 ∨ x = p2) ∨ x = p3 := by
      rcases hx' with hx' | hx'
      · left
        split at hx'
        · simpa using hx'
        · exact Or.inl hx'
      · exact Or.inr hx'
    rcases hx'' with (hx'' | rfl) | rfl
    · rcases m1 x hx'' with e | e <;> simp [e]
    · rcases m2' with e | e
      · simp [e]
      · rcases m1' with e' | e' <;> simp [e, e']
    · rcases m3' with e | e
      · simp [e]
      · rcases m2' with e2 | e2
        · simp [e, e2]
        · rcases m1' with e' | e' <;> simp [e, e2, e']
  have line : ∀ x ∈ e3, ∃ t : K, (t = 1 ∨ t = 2 ∨ t = 1 / 2 ∨ t = - (1 / 2)) ∧ ∀ i < n,
        coord x i = centroid (v :: vs) i + t * (centroid (v :: vs) i - coord h.1 i) := by
    intro x hx
    rcases m3 x hx with rfl | rfl | rfl | rfl
    · exact ⟨1, Or.inl rfl, c0⟩
    · exact ⟨2, Or.inr (Or.inl rfl), cq⟩
    · exact ⟨1 / 2, Or.inr (Or.inr (Or.inl rfl)), c2⟩
    · exact ⟨- (1 / 2), Or.inr (Or.inr (Or.inr rfl)), c3⟩
  have mid : ∀ (a : List K), a.length = n → ∀ i < n,
      coord (vmul half (vadd a low.1)) i = (coord a i + coord low.1 i) / 2 := by
    intro a ha i hi
    rw [vmul, coord_map _ _ i (by rw [vadd, length_zip_op _ _ _ n ha hlow]; exact hi), vadd,
      coord_zip _ _ _ n i ha hlow hi]
    simp only [num, half]; push_cast; field_simp
  intro x hx
  by_cases c : v.2 < f p3
  · rw [if_pos c] at hu
    cases hu
    simp only [List.mem_append, List.mem_singleton, List.map_map, List.mem_map, Function.comp] at hx
    rcases hx with (hx | rfl) | ⟨w, hw', rfl⟩
    · exact Or.inl (line x hx)
    · exact Or.inr ⟨rfl, h, List.mem_cons_self, mid h.1 hh⟩
    · have hwm := List.dropLast_subset _ hw'
      exact Or.inr ⟨rfl, w, List.mem_cons_of_mem _ hwm, mid w.1 (hdim w hwm)⟩
  · rw [if_neg c] at hu
    cases hu
    exact Or.inl (line x hx)

end Exact

/-! ## Sequences of updates -/

theorem finalSimplex_cons (s : List (Vertex R)) (st : Step R) (sts : List (Step R)) :
    finalSimplex s (st :: sts) = finalSimplex st.simplex sts := by
  cases sts with
  | nil => rfl
  | cons a l =>
    cases h : (a :: l).getLast? with
    | none => simp at h
    | some z => simp [finalSimplex, List.getLast?_cons_cons, h]

theorem steps_wf (f : List R → R) (n : Nat) (s : List (Vertex R)) (sts : List (Step R))
    (hw : Wf f n s) (h : Steps f s sts) : Wf f n (finalSimplex s sts) := by
  induction h with
  | nil s => exact hw
  | cons s st sts hu hs ih =>
    have := ih (update_wf f n s st hw hu)
    rw [finalSimplex_cons]
    exact this

theorem steps_value (f : List R → R) (n : Nat) (s : List (Vertex R)) (sts : List (Step R))
    (hw : Wf f n s) (h : Steps f s sts) (x : R) (hx : value s = some x) :
    ∃ y, value (finalSimplex s sts) = some y ∧ y ≤ x := by
  induction h generalizing x with
  | nil s => exact ⟨x, hx, le_rfl⟩
  | cons s st sts hu hs ih =>
    obtain ⟨y, hy, hyx⟩ := update_value f n s st hw hu x hx
    obtain ⟨z, hz, hzy⟩ := ih (update_wf f n s st hw hu) y hy
    exact ⟨z, by rw [finalSimplex_cons]; exact hz, hzy.trans hyx⟩

/-- The simplex of a reachable state: as many vertices as it has dimensions and one more, each with the cost of its
position. -/
theorem nm_simplex (f : List R → R) (seed scale : List R) (s : List (Vertex R)) (sts : List (Step R))
    (hs : mkSimplex f seed scale = some s) (h : Steps f s sts) :
    (finalSimplex s sts).length = seed.length + 1 ∧
      ∀ w ∈ finalSimplex s sts, w.2 = f w.1 ∧ w.1.length = seed.length := by
  have := steps_wf f _ s sts (mkSimplex_spec f seed scale s hs).1 h
  exact ⟨this.card, fun w hw => ⟨this.cost w hw, this.dim w hw⟩⟩

/-- As long as no update shrank the whole simplex, the position reported has the lowest cost of all the points at which
the function was evaluated. -/
theorem nm_best (f : List R → R) (seed scale : List R) (s : List (Vertex R)) (sts : List (Step R))
    (hs : mkSimplex f seed scale = some s) (h : Steps f s sts) (hn : ∀ st ∈ sts, st.shrank = false) :
    ∃ r, location (finalSimplex s sts) = some r ∧
      (∀ p, corner seed scale p → f r ≤ f p) ∧ ∀ st ∈ sts, ∀ p ∈ st.evals, f r ≤ f p := by
  obtain ⟨hw, hso, hc⟩ := mkSimplex_spec f seed scale s hs
  have key : ∀ (s : List (Vertex R)) (sts : List (Step R)), Wf f seed.length s → Sorted s → Steps f s sts →
      (∀ st ∈ sts, st.shrank = false) → ∃ y, value (finalSimplex s sts) = some y ∧ (∀ w ∈ s, y ≤ w.2) ∧
        ∀ st ∈ sts, ∀ p ∈ st.evals, y ≤ f p := by
    intro s sts hw hso h hn
    induction h with
    | nil s =>
      have hne : s ≠ [] := by
        intro e; have := hw.card; rw [e] at this; simp at this
      have hl := List.getLast?_eq_some_getLast hne
      exact ⟨_, by rw [finalSimplex, value]; simp [hl], hso.last_le hl, by simp⟩
    | cons s st sts hu hs' ih =>
      have hw' := update_wf f _ s st hw hu
      have hne : s ≠ [] := by
        intro e; have := hw.card; rw [e] at this; simp at this
      have hl := List.getLast?_eq_some_getLast hne
      obtain ⟨x, hx, hxl⟩ := update_value f _ s st hw hu _ (by rw [value, hl]; rfl)
      obtain ⟨so, ev⟩ := update_sorted f _ s st hw hso hu (hn st List.mem_cons_self) x hx
      obtain ⟨y, hy, h1, h2⟩ := ih hw' so (fun a ha => hn a (List.mem_cons_of_mem _ ha))
      obtain ⟨z, hz, hzx⟩ := steps_value f _ _ sts hw' hs' x hx
      have hyx : y ≤ x := by
        rw [hy] at hz; cases hz; exact hzx
      refine ⟨y, by rw [finalSimplex_cons]; exact hy, fun w hw0 => hyx.trans (hxl.trans (hso.last_le hl w hw0)), ?_⟩
      intro a ha p hp
      rcases List.mem_cons.1 ha with e | e
      · subst e; exact hyx.trans (ev p hp)
      · exact h2 a e p hp
  obtain ⟨y, hy, h1, h2⟩ := key s sts hw hso h hn
  obtain ⟨l, hl, rfl⟩ := Option.map_eq_some_iff.1 hy
  have hcost := (steps_wf f _ s sts hw h).cost l (List.mem_of_mem_getLast? hl)
  refine ⟨l.1, by rw [location, hl]; rfl, fun p hp => ?_, fun st hst p hp => ?_⟩
  · rw [← hcost]; exact h1 _ ((hc p).1 hp)
  · rw [← hcost]; exact h2 st hst p hp

/-! ## The whole minimisation -/

theorem minLoop_spec (f : List R → R) (tol : R) (fuel : Nat) (it : Nat) (s : List (Vertex R)) (d : R)
    (s' : List (Vertex R)) (it' : Nat) (d' : R) (h : minLoop f tol fuel it s d = some (s', it', d')) :
    ∃ sts, Steps f s sts ∧ s' = finalSimplex s sts ∧ it' = it + sts.length ∧ sts.length ≤ fuel ∧
      (sts.getLast?.map Step.delta).getD d = d' ∧ (sts.length < fuel → ¬ bigger d' tol) := by
  induction fuel generalizing it s d with
  | zero =>
    cases h
    exact ⟨[], Steps.nil _, rfl, rfl, le_rfl, rfl, fun h => absurd h (by simp)⟩
  | succ k ih =>
    unfold minLoop at h
    by_cases c : bigger d tol
    · rw [if_pos c] at h
      obtain ⟨st, hu, h⟩ := Option.bind_eq_some_iff.1 h
      obtain ⟨sts, h1, h2, h3, h4, h5, h6⟩ := ih _ _ _ h
      refine ⟨st :: sts, Steps.cons _ _ _ hu h1, by rw [finalSimplex_cons]; exact h2, ?_, ?_, ?_, ?_⟩
      · simp only [List.length_cons]; omega
      · simp only [List.length_cons]; omega
      · cases sts with
        | nil => simpa using h5
        | cons a l =>
          rw [List.getLast?_cons_cons]
          cases e : (a :: l).getLast? with
          | none => simp at e
          | some z => rw [e] at h5; exact h5
      · intro hl
        simp only [List.length_cons] at hl
        exact h6 (by omega)
    · rw [if_neg c] at h
      cases h
      exact ⟨[], Steps.nil _, rfl, rfl, by simp, rfl, fun _ => c⟩

/-- One run: a first simplex around the start, one update and then at most `max_iterations + 1` more of them, fewer only
if the last changed the highest cost by no more than the tolerance; the result is what the last simplex reports. -/
theorem run_spec (f : List R → R) (scale : List R) (tol : R) (maxIter : Int) (start r : List R) (it : Nat)
    (h : oneRun f scale tol maxIter start = some (r, it)) :
    ∃ s sts st, mkSimplex f start scale = some s ∧ Steps f s sts ∧ location (finalSimplex s sts) = some r ∧
      sts.length = it + 1 ∧ sts.getLast? = some st ∧ (it : Int) ≤ max (maxIter + 1) 0 ∧
      ((it : Int) ≤ maxIter → st.delta ≤ tol ∧ -st.delta ≤ tol) := by
  unfold oneRun at h
  obtain ⟨s, hs, h⟩ := Option.bind_eq_some_iff.1 h
  obtain ⟨st, hu, h⟩ := Option.bind_eq_some_iff.1 h
  obtain ⟨⟨s', it', d'⟩, hl, h⟩ := Option.bind_eq_some_iff.1 h
  obtain ⟨r', hr, h⟩ := Option.bind_eq_some_iff.1 h
  cases h
  obtain ⟨sts, h1, h2, h3, h4, h5, h6⟩ := minLoop_spec f tol _ _ _ _ _ _ _ hl
  simp only [Nat.zero_add] at h3
  subst h3
  have hlast : ∃ z, (st :: sts).getLast? = some z ∧ z.delta = d' := by
    cases sts with
    | nil => exact ⟨st, rfl, by simpa using h5⟩
    | cons a l =>
      rw [List.getLast?_cons_cons]
      cases e : (a :: l).getLast? with
      | none => simp at e
      | some z => rw [e] at h5; exact ⟨z, rfl, h5⟩
  obtain ⟨z, hz, hzd⟩ := hlast
  refine ⟨s, st :: sts, z, hs, Steps.cons _ _ _ hu h1, by rw [finalSimplex_cons, ← h2]; exact hr, by simp, hz, ?_, ?_⟩
  · omega
  · intro hle
    rw [hzd]
    have := h6 (by omega)
    unfold bigger at this
    rw [not_or, not_lt, not_lt] at this
    exact this

/-- A run never ends at a point that costs more than the start or the start moved along an axis. -/
theorem run_descends (f : List R → R) (scale : List R) (tol : R) (maxIter : Int) (start r : List R) (it : Nat)
    (h : oneRun f scale tol maxIter start = some (r, it)) :
    r.length = start.length ∧ ∀ p, corner start scale p → f r ≤ f p := by
  obtain ⟨s, sts, st, hs, hsts, hr, -⟩ := run_spec f scale tol maxIter start r it h
  obtain ⟨hw, hso, hc⟩ := mkSimplex_spec f start scale s hs
  obtain ⟨l, hl, rfl⟩ := Option.map_eq_some_iff.1 hr
  have hwf := steps_wf f _ s sts hw hsts
  have hmem := List.mem_of_mem_getLast? hl
  refine ⟨hwf.dim l hmem, fun p hp => ?_⟩
  have hne : s ≠ [] := by
    intro e; have := hw.card; rw [e] at this; simp at this
  have hl0 := List.getLast?_eq_some_getLast hne
  obtain ⟨y, hy, hyx⟩ := steps_value f _ s sts hw hsts _ (by rw [value, hl0]; rfl)
  rw [value, hl] at hy
  cases hy
  rw [← hwf.cost l hmem]
  exact hyx.trans (hso.last_le hl0 _ ((hc p).1 hp))

theorem restart_spec (f : List R → R) (scale : List R) (tol : R) (maxIter : Int) (k : Nat) (seed r : List R)
    (it0 it : Nat) (h : restartLoop f scale tol maxIter k seed it0 = some (r, it)) :
    f r ≤ f seed ∧ r.length = seed.length ∧ (1 ≤ k → (∀ p, corner seed scale p → f r ≤ f p) ∧
      ∃ start, oneRun f scale tol maxIter start = some (r, it)) := by
  induction k generalizing seed it0 with
  | zero => cases h; exact ⟨le_rfl, rfl, fun h => absurd h (by simp)⟩
  | succ k ih =>
    unfold restartLoop at h
    obtain ⟨⟨r1, it1⟩, h1, h⟩ := Option.bind_eq_some_iff.1 h
    obtain ⟨a, b, c⟩ := ih _ _ h
    obtain ⟨hd, hr⟩ := run_descends f scale tol maxIter _ _ _ h1
    refine ⟨a.trans (hr _ (Or.inl rfl)), b.trans hd, fun _ => ⟨fun p hp => a.trans (hr p hp), ?_⟩⟩
    cases k with
    | zero => cases h; exact ⟨seed, h1⟩
    | succ k => exact (c (by omega)).2

/-- **C86.** The result never costs more than the seed, nor, if at least one run is made, than the seed moved along an
axis by the given scale. -/
theorem nm_descends (f : List R → R) (seed scale : List R) (restarts : Nat) (tol : R) (maxIter : Int) (r : List R)
    (status : NMStatus) (h : nelderMead f seed scale restarts tol maxIter = some (r, status)) :
    f r ≤ f seed ∧ r.length = seed.length ∧ (1 ≤ restarts → ∀ (i : Nat) x y, seed[i]? = some x → scale[i]? = some y →
      f r ≤ f (seed.set i (x + y))) := by
  unfold nelderMead at h
  obtain ⟨⟨r1, it1⟩, h1, h⟩ := Option.bind_eq_some_iff.1 h
  cases h
  obtain ⟨a, b, c⟩ := restart_spec f scale tol maxIter restarts seed _ _ _ h1
  exact ⟨a, b, fun hk i x y hx hy => (c hk).1 _ (Or.inr ⟨i, x, y, hx, hy, rfl⟩)⟩

/-- **C86.** The status says whether the last run ended before the allowed number of iterations; if it did, the last
update of its simplex changed the highest cost by no more than the tolerance. -/
theorem nm_status (f : List R → R) (seed scale : List R) (restarts : Nat) (tol : R) (maxIter : Int) (r : List R)
    (hk : 1 ≤ restarts)
    (h : nelderMead f seed scale restarts tol maxIter = some (r, .convergedRelTolerance)) :
    ∃ start s sts st, mkSimplex f start scale = some s ∧ Steps f s sts ∧ location (finalSimplex s sts) = some r ∧
      sts.getLast? = some st ∧ st.delta ≤ tol ∧ -st.delta ≤ tol ∧ (sts.length : Int) ≤ maxIter := by
  unfold nelderMead at h
  obtain ⟨⟨r1, it1⟩, h1, h⟩ := Option.bind_eq_some_iff.1 h
  obtain ⟨-, -, c⟩ := restart_spec f scale tol maxIter restarts seed _ _ _ h1
  obtain ⟨start, hrun⟩ := (c hk).2
  have h' := Option.some.inj h
  obtain ⟨rfl, hst⟩ := Prod.mk.inj h'
  by_cases hm : (it1 : Int) ≥ maxIter
  · rw [if_pos hm] at hst; cases hst
  · obtain ⟨s, sts, st, a1, a2, a3, a4, a5, a6, a7⟩ := run_spec f scale tol maxIter start _ _ hrun
    exact ⟨start, s, sts, st, a1, a2, a3, a5, (a7 (by omega)).1, (a7 (by omega)).2, by omega⟩

theorem minLoop_some (f : List R → R) (n : Nat) (hn : 1 ≤ n) (tol : R) (fuel it : Nat) (s : List (Vertex R)) (d : R)
    (hw : Wf f n s) : ∃ z, minLoop f tol fuel it s d = some z := by
  induction fuel generalizing it s d with
  | zero => exact ⟨_, rfl⟩
  | succ k ih =>
    unfold minLoop
    by_cases c : bigger d tol
    · rw [if_pos c]
      match s, hw with
      | [], hw => exact absurd hw.card (by simp)
      | [_], hw => exact absurd hw.card (by simp; omega)
      | a :: b :: l, hw =>
        obtain ⟨st, hst⟩ := update_some f a b l
        rw [hst]
        exact ih _ _ _ (update_wf f n _ st hw hst)
    · rw [if_neg c]; exact ⟨_, rfl⟩

theorem oneRun_some (f : List R → R) (scale start : List R) (tol : R) (maxIter : Int)
    (hl : scale.length = start.length) (hn : 1 ≤ start.length) :
    ∃ z, oneRun f scale tol maxIter start = some z := by
  have : ∃ s, mkSimplex f start scale = some s := by
    unfold mkSimplex; rw [if_pos hl]; exact ⟨_, rfl⟩
  obtain ⟨s, hs⟩ := this
  have hw := (mkSimplex_spec f start scale s hs).1
  match s, hw, hs with
  | [], hw, _ => exact absurd hw.card (by simp)
  | [_], hw, _ =>
    exfalso
    have := hw.card
    simp only [List.length_cons, List.length_nil] at this
    omega
  | a :: b :: l, hw, hs =>
    obtain ⟨st, hst⟩ := update_some f a b l
    have hw' := update_wf f _ _ st hw hst
    obtain ⟨⟨s', it, d⟩, hz⟩ := minLoop_some f _ hn tol (maxIter + 1).toNat 0 st.simplex st.delta hw'
    obtain ⟨sts, h1, h2, -⟩ := minLoop_spec f tol _ _ _ _ _ _ _ hz
    have hw2 := steps_wf f _ _ sts hw' h1
    have hne : s' ≠ [] := by
      intro e; have := hw2.card; rw [← h2, e] at this; simp at this
    unfold oneRun
    rw [hs, Option.bind_eq_bind, Option.bind_some, hst, Option.bind_eq_bind, Option.bind_some, hz, Option.bind_eq_bind, Option.bind_some]
    simp [location, List.getLast?_eq_some_getLast hne]

/-- **C86.** With a seed that has coordinates and as many scales, the minimisation ends and returns a result, whatever
the function. -/
theorem nm_total (f : List R → R) (seed scale : List R) (restarts : Nat) (tol : R) (maxIter : Int)
    (hl : scale.length = seed.length) (hn : 1 ≤ seed.length) :
    ∃ r status, nelderMead f seed scale restarts tol maxIter = some (r, status) := by
  have key : ∀ k seed it, scale.length = seed.length → 1 ≤ seed.length →
      ∃ z, restartLoop f scale tol maxIter k seed it = some z := by
    intro k
    induction k with
    | zero => intro seed it _ _; exact ⟨_, rfl⟩
    | succ k ih =>
      intro seed it hl hn
      obtain ⟨⟨r, it1⟩, hr⟩ := oneRun_some f scale seed tol maxIter hl hn
      have := (run_descends f scale tol maxIter seed r it1 hr).1
      unfold restartLoop
      rw [hr]
      exact ih r it1 (by omega) (by omega)
  obtain ⟨⟨r, it⟩, h⟩ := key restarts seed 0 hl hn
  exact ⟨r, _, by unfold nelderMead; rw [h]; rfl⟩

/-- **C86.** The form without scales. -/
theorem nm_default (f : List R → R) (seed : List R) (restarts : Nat) (tol : R) (maxIter : Int) (hn : 1 ≤ seed.length) :
    ∃ r status, nelderMead1 f seed restarts tol maxIter = some (r, status) ∧ f r ≤ f seed ∧
      (1 ≤ restarts → ∀ (i : Nat) x, seed[i]? = some x → f r ≤ f (seed.set i (x + num 1))) := by
  obtain ⟨r, status, h⟩ := nm_total f seed (List.replicate seed.length (num 1)) restarts tol maxIter (by simp) hn
  obtain ⟨a, -, c⟩ := nm_descends f seed _ restarts tol maxIter r status h
  refine ⟨r, status, h, a, fun hk i x hx => c hk i x _ hx ?_⟩
  have : i < seed.length := by
    by_contra hc
    rw [List.getElem?_eq_none (by omega)] at hx
    cases hx
  simp [this]

/-- Refuted: a seed without coordinates. -/
theorem nm_no_coordinates (f : List R → R) (restarts : Nat) (tol : R) (maxIter : Int) (hk : 1 ≤ restarts) :
    nelderMead f [] [] restarts tol maxIter = none := by
  obtain ⟨k, rfl⟩ := Nat.exists_eq_add_of_le hk
  rw [Nat.add_comm]
  rfl

/-! ## Cases -/

/-- A function of two variables that is lowest at (1/2, 0). -/
def dip : List ℚ → ℚ := fun p =>
  if p = [0, 0] then 1 else if p = [1, 0] then 2 else if p = [0, 1] then 3 else if p = [1/2, 0] then 0 else 9

/-- Refuted: the result is the best point found.  Here the whole simplex shrinks, the function is evaluated at (1/2, 0)
where it is 0, but the result is the seed, where it is 1. -/
theorem nm_not_best :
    ∃ s st, mkSimplex dip [0, 0] [1, 1] = some s ∧ update dip s = some st ∧ [1/2, 0] ∈ st.evals ∧
      nelderMead dip [0, 0] [1, 1] 1 6 1000 = some ([0, 0], .convergedRelTolerance) ∧ dip [1/2, 0] < dip [0, 0] := by
  have h : ((mkSimplex dip [0, 0] [1, 1]).bind (update dip)).any (fun st => decide ([1/2, 0] ∈ st.evals)) = true := by
    decide +kernel
  obtain ⟨a, hp⟩ := (Option.any_eq_true_iff_get _ _).1 h
  generalize hg : Option.get _ a = st at hp
  have hst := hg ▸ (Option.some_get a).symm
  obtain ⟨s, hs, hu⟩ := Option.bind_eq_some_iff.1 hst
  exact ⟨s, st, hs, hu, of_decide_eq_true hp, by decide +kernel, by decide +kernel⟩

/-- A bowl; two restarts bring the result from (3, 2) to the bottom or nearer. -/
def bowl : List ℚ → ℚ := fun p => (p.map (fun x => x * x)).foldl (· + ·) 0

example : (nelderMead bowl [3, 2] [1, 1] 2 (1/100) 20).map (fun r => decide (bowl r.1 < 1/10)) = some true := by
  decide +kernel

/-- A run that is told not to have converged although its last update was within the tolerance: the count of iterations
is compared with `>=`. -/
theorem nm_status_late :
    nelderMead dip [0, 0] [1, 1] 1 6 0 = some ([0, 0], .didNotConverge) ∧
      ∃ s st, mkSimplex dip [0, 0] [1, 1] = some s ∧ update dip s = some st ∧ st.delta ≤ 6 ∧ -st.delta ≤ 6 := by
  have h : ((mkSimplex dip [0, 0] [1, 1]).bind (update dip)).any (fun st => decide (st.delta ≤ 6 ∧ -st.delta ≤ 6)) = true := by
    decide +kernel
  obtain ⟨a, hp⟩ := (Option.any_eq_true_iff_get _ _).1 h
  generalize hg : Option.get _ a = st at hp
  have hst := hg ▸ (Option.some_get a).symm
  obtain ⟨s, hs, hu⟩ := Option.bind_eq_some_iff.1 hst
  exact ⟨by decide +kernel, s, st, hs, hu, of_decide_eq_true hp⟩

end Verif.Opt
