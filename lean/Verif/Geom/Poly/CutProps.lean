import Mathlib.Data.List.Sort
import Mathlib.Tactic.IntervalCases
import Mathlib.Algebra.Order.Field.Rat
import Verif.Geom.Poly.Half

/-
C123: `cutPoly` clips polygons to a window: winding numbers are kept inside of the window and are zero outside.
-/

namespace Verif.Geom.Poly

variable {K : Type} [Field K] [LinearOrder K] [IsStrictOrderedRing K]

/-! ### The edges of a cut polygon -/

theorem edges_cyc (f : Nat → Nat) (c : List Nat) (h : IsCyc f c) (g : Nat → Pt K) :
    edges (c.map g) = c.map fun i => (g i, g (f i)) := by
  have hv : ∀ i, i < c.length → vert (c.map g) i = g (c.getD i 0) := by
    intro i hi
    unfold vert
    rw [List.getD_eq_getElem _ _ (by simpa using hi), List.getElem_map, List.getD_eq_getElem _ _ hi]
  have hpos := List.length_pos_iff.2 h.ne
  unfold edges
  rw [List.length_map]
  apply List.ext_getElem
  · simp
  · intro i h1 h2
    have hi : i < c.length := by simpa using h2
    rw [List.getElem_map, List.getElem_map, List.getElem_range, hv i hi, hv _ (Nat.mod_lt _ hpos), ← h.step i hi,
      List.getD_eq_getElem _ _ hi]

theorem edges_plain (E : List (CutPt K)) :
    edges (E.map (·.pt)) = (List.range E.length).map fun i => ((cp E i).pt, (cp E ((i + 1) % E.length)).pt) := by
  have hv : ∀ i, i < E.length → vert (E.map (·.pt)) i = (cp E i).pt := by
    intro i hi
    unfold vert cp
    rw [List.getD_eq_getElem _ _ (by simpa using hi), List.getElem_map, List.getD_eq_getElem _ _ hi]
  unfold edges
  rw [List.length_map]
  refine List.map_congr_left fun i hi => ?_
  have hi := List.mem_range.1 hi
  rw [hv i hi, hv _ (Nat.mod_lt _ (by omega))]

/-- Splitting the points into outward ones and others. -/
theorem split_out (E : List (CutPt K)) (h : Nat → Pt K × Pt K) :
    ((List.range E.length).map h).Perm (((List.range E.length).flatMap fun i => if (cp E i).tag = some true then [] else [h i])
      ++ (tagged E true).map h) := by
  unfold tagged
  induction List.range E.length with
  | nil => simp
  | cons i t ih =>
    rw [List.map_cons, List.flatMap_cons, List.filter_cons]
    by_cases ht : (cp E i).tag = some true
    · rw [if_pos ht, if_pos (by simpa using ht), List.nil_append, List.map_cons]
      exact (ih.cons _).trans (List.perm_middle.symm)
    · rw [if_neg ht, if_neg (by simpa using ht)]
      exact ih.cons _

/-- The edges of the polygons given by `cutToHalfSpace` are the parts of the edges of the polygon in the half-plane, and edges
along the cutline. -/
theorem cutToHalf_edges (sort : List (ValIndex K) → List (ValIndex K)) (hsort : ∀ p, (sort p).Perm p) (n : Pt K) (H : K)
    (l : List (Pt K)) (hl : l ≠ []) : ∃ cl : List (Pt K × Pt K), (∀ e ∈ cl, dot n e.1 = H ∧ dot n e.2 = H) ∧
      ((cutToHalf sort n H l).flatMap edges).Perm ((edges l).flatMap (clip n H) ++ cl) := by
  obtain ⟨hk, halt⟩ := emitAll_good n H l hl
  have hp := emitAll_pts n H l
  unfold cutToHalf
  dsimp only
  set E := emitAll n H l
  by_cases he : (onCutline n E).isEmpty = true
  · refine ⟨[], by simp, ?_⟩
    rw [if_pos he]
    have hno : ∀ i, i < E.length → (cp E i).tag ≠ some true := by
      intro i hi ht
      have hm : (⟨n.1 * (cp E i).pt.2 - n.2 * (cp E i).pt.1, i, true⟩ : ValIndex K) ∈ onCutline n E := by
        rw [onCutline_eq]
        refine List.mem_filterMap.2 ⟨i, List.mem_range.2 hi, ?_⟩
        rw [entry, ht]; rfl
      rw [List.isEmpty_iff.1 he] at hm
      simp at hm
    rw [List.append_nil]
    refine List.Perm.trans (List.Perm.of_eq ?_) hk
    simp only [List.flatMap_cons, List.flatMap_nil, List.append_nil]
    rw [edges_plain]
    rw [List.map_eq_flatMap]
    refine List.flatMap_congr fun i hi => ?_
    rw [if_neg (hno i (List.mem_range.1 hi))]
  · rw [if_neg he]
    obtain ⟨hA, hB, hC⟩ := succ_spec n H E (sort (onCutline n E)) (hsort _) (fun x hx => (hp x hx).2.1) halt
    set f := succ n H E (sort (onCutline n E))
    have hlt : ∀ i, i < E.length → f i < E.length := by
      intro i hi
      by_cases ht : (cp E i).tag = some true
      · exact ((tagged_mem E false _).1 (hB i hi ht)).1
      · rw [hA i hi ht]; exact Nat.mod_lt _ (by omega)
    obtain ⟨h1, h2⟩ := components_spec f E.length hlt hC (E.length + 1) [] List.nodup_nil (by simp) (by simp) (by simp)
    rw [List.append_nil] at h1
    set comps := components f E.length (E.length + 1) []
    have hpt : ∀ i, i < E.length → (E.map (·.pt)).getD i (0, 0) = (cp E i).pt := by
      intro i hi
      rw [List.getD_eq_getElem _ _ (by simpa using hi), List.getElem_map]
      unfold cp
      rw [List.getD_eq_getElem _ _ hi]
    refine ⟨(tagged E true).map fun i => ((cp E i).pt, (cp E (f i)).pt), ?_, ?_⟩
    · intro e hem
      obtain ⟨i, hi, rfl⟩ := List.mem_map.1 hem
      obtain ⟨hi, ht⟩ := (tagged_mem E true i).1 hi
      obtain ⟨hf, htf⟩ := (tagged_mem E false _).1 (hB i hi ht)
      exact ⟨(hp _ (cp_mem E i hi)).2.1 (by rw [ht]; simp), (hp _ (cp_mem E _ hf)).2.1 (by rw [htf]; simp)⟩
    · have e1 : (comps.map fun c => c.map fun i => (E.map (·.pt)).getD i (0, 0)).flatMap edges
          = comps.flatten.map fun i => ((E.map (·.pt)).getD i (0, 0), (E.map (·.pt)).getD (f i) (0, 0)) := by
        rw [List.flatMap_map, List.map_flatten, List.flatMap_def]
        congr 1
        refine List.map_congr_left fun c hc => ?_
        exact edges_cyc f c (h2 c hc) _
      rw [e1]
      have e2 : (List.range E.length).map (fun i => ((E.map (·.pt)).getD i (0, 0), (E.map (·.pt)).getD (f i) (0, 0)))
          = (List.range E.length).map fun i => ((cp E i).pt, (cp E (f i)).pt) := by
        refine List.map_congr_left fun i hi => ?_
        have hi := List.mem_range.1 hi
        rw [hpt i hi, hpt _ (hlt i hi)]
      refine (h1.map _).trans ?_
      rw [e2]
      refine (split_out E _).trans (List.Perm.append_right _ ?_)
      refine List.Perm.trans (List.Perm.of_eq ?_) hk
      refine List.flatMap_congr fun i hi => ?_
      by_cases ht : (cp E i).tag = some true
      · rw [if_pos ht, if_pos ht]
      · rw [if_neg ht, if_neg ht, hA i (List.mem_range.1 hi) ht]

/-- The vertices of the polygons given by `cutToHalfSpace` are in the half-plane and on edges of the polygon. -/
theorem cutToHalf_vertices (sort : List (ValIndex K) → List (ValIndex K)) (hsort : ∀ p, (sort p).Perm p) (n : Pt K) (H : K)
    (l : List (Pt K)) (hl : l ≠ []) : ∀ c ∈ cutToHalf sort n H l, ∀ p ∈ c, dot n p ≤ H ∧ ∃ e ∈ edges l, OnSeg e p := by
  obtain ⟨hk, halt⟩ := emitAll_good n H l hl
  have hp := emitAll_pts n H l
  intro c hc p hpc
  unfold cutToHalf at hc
  dsimp only at hc
  set E := emitAll n H l
  have hfin : ∀ x ∈ E.map (·.pt), dot n x ≤ H ∧ ∃ e ∈ edges l, OnSeg e x := by
    intro x hx
    obtain ⟨y, hy, rfl⟩ := List.mem_map.1 hx
    exact ⟨(hp y hy).1, (hp y hy).2.2⟩
  by_cases he : (onCutline n E).isEmpty = true
  · rw [if_pos he, List.mem_singleton] at hc
    subst hc
    exact hfin p hpc
  · rw [if_neg he] at hc
    obtain ⟨hA, hB, hC⟩ := succ_spec n H E (sort (onCutline n E)) (hsort _) (fun x hx => (hp x hx).2.1) halt
    set f := succ n H E (sort (onCutline n E))
    have hlt : ∀ i, i < E.length → f i < E.length := by
      intro i hi
      by_cases ht : (cp E i).tag = some true
      · exact ((tagged_mem E false _).1 (hB i hi ht)).1
      · rw [hA i hi ht]; exact Nat.mod_lt _ (by omega)
    obtain ⟨h1, h2⟩ := components_spec f E.length hlt hC (E.length + 1) [] List.nodup_nil (by simp) (by simp) (by simp)
    rw [List.append_nil] at h1
    obtain ⟨d, hd, rfl⟩ := List.mem_map.1 hc
    obtain ⟨i, hi, rfl⟩ := List.mem_map.1 hpc
    have hiN : i < E.length := List.mem_range.1 (h1.mem_iff.1 (List.mem_flatten.2 ⟨d, hd, hi⟩))
    apply hfin
    rw [List.getD_eq_getElem _ _ (by simpa using hiN)]
    exact List.getElem_mem _

/-! ### Crossings of a ray -/

theorem up_below (a b : Pt K) (ha : a.2 < 0) (hb : b.2 < 0) : up a b = 0 := by
  unfold up
  rw [if_neg, if_neg]
  · rintro ⟨h1, h2, h3⟩
    nlinarith [mul_pos h2 (neg_pos.2 hb), mul_nonneg (neg_nonneg.2 h1) (neg_pos.2 ha).le]
  · rintro ⟨h1, h2, h3⟩
    nlinarith [mul_pos h2 (neg_pos.2 ha), mul_nonneg (neg_nonneg.2 h1) (neg_pos.2 hb).le]

theorem up_seg (a b c : Pt K) (h : OnSeg (a, b) c) : up a b = up a c + up c b := by
  obtain ⟨t, h0, h1, rfl⟩ := h
  obtain ⟨a1, a2⟩ := a
  obtain ⟨b1, b2⟩ := b
  unfold up
  dsimp only
  have e1 : a1 * ((1 - t) * a2 + t * b2) - a2 * ((1 - t) * a1 + t * b1) = t * (a1 * b2 - a2 * b1) := by ring
  have e2 : ((1 - t) * a1 + t * b1) * b2 - ((1 - t) * a2 + t * b2) * b1 = (1 - t) * (a1 * b2 - a2 * b1) := by ring
  rw [e1, e2]
  generalize a1 * b2 - a2 * b1 = C
  rcases le_or_gt a1 0 with ha | ha <;> rcases le_or_gt b1 0 with hb | hb
  · have hc : (1 - t) * a1 + t * b1 ≤ 0 := by nlinarith
    simp [not_lt.2 ha, not_lt.2 hb, not_lt.2 hc]
  · rcases le_or_gt ((1 - t) * a1 + t * b1) 0 with hc | hc
    · have ht : 0 < 1 - t := by
        rcases lt_or_eq_of_le (sub_nonneg.2 h1) with h | h
        · exact h
        · exfalso
          have : t = 1 := by linarith
          rw [this] at hc
          linarith
      have : (1 - t) * C < 0 ↔ C < 0 := by
        constructor
        · intro h; by_contra h'; nlinarith [mul_nonneg ht.le (not_lt.1 h')]
        · intro h; nlinarith
      simp [ha, hb, hc, not_lt.2 ha, not_le.2 hb, not_lt.2 hc, this]
    · have ht : 0 < t := by
        rcases lt_or_eq_of_le h0 with h | h
        · exact h
        · exfalso
          rw [← h] at hc
          linarith
      have : t * C < 0 ↔ C < 0 := by
        constructor
        · intro h; by_contra h'; nlinarith [mul_nonneg ht.le (not_lt.1 h')]
        · intro h; nlinarith
      simp [ha, hb, hc, not_lt.2 ha, not_le.2 hb, not_le.2 hc, this]
  · rcases le_or_gt ((1 - t) * a1 + t * b1) 0 with hc | hc
    · have ht : 0 < t := by
        rcases lt_or_eq_of_le h0 with h | h
        · exact h
        · exfalso
          rw [← h] at hc
          linarith
      have : 0 < t * C ↔ 0 < C := by
        constructor
        · intro h; by_contra h'; nlinarith [mul_nonneg ht.le (neg_nonneg.2 (not_lt.1 h'))]
        · intro h; exact mul_pos ht h
      simp [ha, hb, hc, not_le.2 ha, not_lt.2 hb, not_lt.2 hc, this]
    · have ht : 0 < 1 - t := by
        rcases lt_or_eq_of_le (sub_nonneg.2 h1) with h | h
        · exact h
        · exfalso
          have : t = 1 := by linarith
          rw [this] at hc
          linarith
      have : 0 < (1 - t) * C ↔ 0 < C := by
        constructor
        · intro h; by_contra h'; nlinarith [mul_nonneg ht.le (neg_nonneg.2 (not_lt.1 h'))]
        · intro h; exact mul_pos ht h
      simp [ha, hb, hc, not_le.2 ha, not_lt.2 hb, not_le.2 hc, this]
  · have hc : 0 < (1 - t) * a1 + t * b1 := by
      rcases lt_or_eq_of_le h0 with h | h
      · nlinarith [mul_pos h hb, mul_nonneg (sub_nonneg.2 h1) ha.le]
      · rw [← h]; linarith
    simp [not_le.2 ha, not_le.2 hb, not_le.2 hc]

theorem turn_seg (k : Nat) (q a b c : Pt K) (h : OnSeg (a, b) c) :
    OnSeg (turn k (rel q a), turn k (rel q b)) (turn k (rel q c)) := by
  obtain ⟨t, h0, h1, rfl⟩ := h
  refine ⟨t, h0, h1, ?_⟩
  induction k with
  | zero => exact Prod.ext (by simp only [turn, rel]; ring) (by simp only [turn, rel]; ring)
  | succ k ih =>
    have e1 := congrArg Prod.fst ih
    have e2 := congrArg Prod.snd ih
    simp only [turn] at e1 e2 ⊢
    exact Prod.ext (by dsimp only; linear_combination e2) (by dsimp only; linear_combination -e1)

theorem seg_left (a b c p : Pt K) (h : OnSeg (a, b) c) (hp : OnSeg (a, c) p) : OnSeg (a, b) p := by
  obtain ⟨t, h0, h1, rfl⟩ := h
  obtain ⟨s, g0, g1, rfl⟩ := hp
  refine ⟨s * t, mul_nonneg g0 h0, ?_, Prod.ext (by dsimp only; ring) (by dsimp only; ring)⟩
  nlinarith

theorem seg_symm (a b p : Pt K) (h : OnSeg (a, b) p) : OnSeg (b, a) p := by
  obtain ⟨t, h0, h1, rfl⟩ := h
  exact ⟨1 - t, by linarith, by linarith, Prod.ext (by dsimp only; ring) (by dsimp only; ring)⟩

theorem seg_right (a b c p : Pt K) (h : OnSeg (a, b) c) (hp : OnSeg (c, b) p) : OnSeg (a, b) p :=
  seg_symm _ _ _ (seg_left b a c p (seg_symm _ _ _ h) (seg_symm _ _ _ hp))

theorem dot_onSeg (n : Pt K) (e : Pt K × Pt K) (p : Pt K) (M : K) (h : OnSeg e p) (h1 : dot n e.1 ≤ M) (h2 : dot n e.2 ≤ M) : dot n p ≤ M := by
  obtain ⟨t, g0, g1, rfl⟩ := h
  rw [dot_seg]
  nlinarith

/-- The parts of the edges of `clip`. -/
theorem clip_seg (n : Pt K) (H : K) (e : Pt K × Pt K) : ∀ c ∈ clip n H e, ∀ p, OnSeg c p → OnSeg e p := by
  obtain ⟨a, b⟩ := e
  intro c hc p hp
  unfold clip at hc
  dsimp only at hc
  split at hc
  · rename_i h1
    split at hc
    · rw [List.mem_singleton] at hc; subst hc; exact hp
    · rename_i h2
      rw [List.mem_singleton] at hc
      subst hc
      exact seg_left _ _ _ _ (cutEdge_spec a b n H (Or.inl ⟨h1, not_le.1 h2⟩)).2 hp
  · rename_i h1
    split at hc
    · rename_i h2
      rw [List.mem_singleton] at hc
      subst hc
      split at hp
      · exact hp
      · rename_i h3
        exact seg_right _ _ _ _ (cutEdge_spec a b n H (Or.inr ⟨h2, lt_of_le_of_ne (not_lt.1 h1) (Ne.symm h3)⟩)).2 hp
    · simp at hc

/-- The crossings of a ray that goes away from the cutline are those of the part in the half-plane. -/
theorem clip_cross (n : Pt K) (H : K) (k : Nat) (q : Pt K) (hk : ∀ p, dot n p - dot n q = -(turn k (rel q p)).2) (hq : dot n q < H)
    (e : Pt K × Pt K) : windRay k q (clip n H e) = windRay k q [e] := by
  have hz : ∀ a b : Pt K, H ≤ dot n a → H ≤ dot n b → up (turn k (rel q a)) (turn k (rel q b)) = 0 := fun a b ha hb =>
    up_below _ _ (by linarith [hk a]) (by linarith [hk b])
  obtain ⟨a, b⟩ := e
  unfold clip
  dsimp only
  split
  · rename_i h1
    split
    · rfl
    · rename_i h2
      have hs := cutEdge_spec a b n H (Or.inl ⟨h1, not_le.1 h2⟩)
      have e1 := up_seg _ _ _ (turn_seg k q a b _ hs.2)
      rw [hz _ b hs.1.ge (not_le.1 h2).le] at e1
      simp only [windRay, List.map_cons, List.map_nil, List.sum_cons, List.sum_nil]
      rw [e1]
      omega
  · rename_i h1
    split
    · rename_i h2
      split
      · rfl
      · rename_i h3
        have hs := cutEdge_spec a b n H (Or.inr ⟨h2, lt_of_le_of_ne (not_lt.1 h1) (Ne.symm h3)⟩)
        have e1 := up_seg _ _ _ (turn_seg k q a b _ hs.2)
        rw [hz a _ (not_lt.1 h1) hs.1.ge] at e1
        simp only [windRay, List.map_cons, List.map_nil, List.sum_cons, List.sum_nil]
        rw [e1]
        omega
    · rename_i h2
      simp only [windRay, List.map_cons, List.map_nil, List.sum_cons, List.sum_nil]
      rw [hz a b (not_lt.1 h1) (not_lt.1 h2)]
      rfl

/-- The normals of the four cuts. -/
def axes : List (Pt K) := [(-1, 0), (1, 0), (0, -1), (0, 1)]

/-- There is a ray away from the cutline, and one towards it. -/
theorem axes_ray (n : Pt K) (hn : n ∈ (axes : List (Pt K))) :
    (∃ k, ∀ p q : Pt K, dot n p - dot n q = -(turn k (rel q p)).2) ∧ ∃ k, ∀ p q : Pt K, dot n p - dot n q = (turn k (rel q p)).2 := by
  simp only [axes, List.mem_cons, List.not_mem_nil, or_false] at hn
  rcases hn with rfl | rfl | rfl | rfl
  · exact ⟨⟨3, fun p q => by simp only [dot, turn, rel]; ring⟩, 1, fun p q => by simp only [dot, turn, rel]; ring⟩
  · exact ⟨⟨1, fun p q => by simp only [dot, turn, rel]; ring⟩, 3, fun p q => by simp only [dot, turn, rel]; ring⟩
  · exact ⟨⟨0, fun p q => by simp only [dot, turn, rel]; ring⟩, 2, fun p q => by simp only [dot, turn, rel]; ring⟩
  · exact ⟨⟨2, fun p q => by simp only [dot, turn, rel]; ring⟩, 0, fun p q => by simp only [dot, turn, rel]; ring⟩

theorem windRay_flatMap {α : Type} (k : Nat) (q : Pt K) (L : List α) (f g : α → List (Pt K × Pt K))
    (h : ∀ x ∈ L, windRay k q (f x) = windRay k q (g x)) : windRay k q (L.flatMap f) = windRay k q (L.flatMap g) := by
  induction L with
  | nil => rfl
  | cons x t ih =>
    rw [List.flatMap_cons, List.flatMap_cons, windRay_append, windRay_append, h x (List.mem_cons_self ..),
      ih fun y hy => h y (List.mem_cons_of_mem _ hy)]

theorem edge_vertices (l : List (Pt K)) (e : Pt K × Pt K) (h : e ∈ edges l) : e.1 ∈ l ∧ e.2 ∈ l := by
  obtain ⟨i, hi, rfl⟩ := List.mem_map.1 h
  have hi := List.mem_range.1 hi
  unfold vert
  rw [List.getD_eq_getElem _ _ hi, List.getD_eq_getElem _ _ (Nat.mod_lt _ (by omega))]
  exact ⟨List.getElem_mem _, List.getElem_mem _⟩

/-- One cut of one polygon. -/
theorem cutToHalf_wind (sort : List (ValIndex K) → List (ValIndex K)) (hsort : ∀ p, (sort p).Perm p) (n : Pt K)
    (hn : n ∈ (axes : List (Pt K))) (H : K) (l : List (Pt K)) (hl : l ≠ []) (q : Pt K) (hq : dot n q < H) (hoff : Off (edges l) q) :
    wind q (cutToHalf sort n H l) = wind q [l] ∧ Off ((cutToHalf sort n H l).flatMap edges) q := by
  obtain ⟨cl, hcl, hperm⟩ := cutToHalf_edges sort hsort n H l hl
  obtain ⟨⟨k, hk⟩, -⟩ := axes_ray n hn
  have hoff2 : Off ((cutToHalf sort n H l).flatMap edges) q := by
    intro e he hs
    rcases List.mem_append.1 (hperm.mem_iff.1 he) with h | h
    · obtain ⟨e0, he0, hc⟩ := List.mem_flatMap.1 h
      exact hoff e0 he0 (clip_seg n H e0 e hc q hs)
    · obtain ⟨t, _, _, rfl⟩ := hs
      have h2 := hcl e h
      rw [dot_seg, h2.1, h2.2] at hq
      linarith
  refine ⟨?_, hoff2⟩
  have hoff1 : Off ([l].flatMap edges) q := by simpa using hoff
  rw [← windRay_eq k q _ hoff2, ← windRay_eq k q _ hoff1, windRay_perm k q hperm, windRay_append]
  have hcl0 : windRay k q cl = 0 := by
    unfold windRay
    apply List.sum_eq_zero
    intro x hx
    obtain ⟨e, he, rfl⟩ := List.mem_map.1 hx
    have := hcl e he
    exact up_below _ _ (by linarith [hk e.1 q, this.1]) (by linarith [hk e.2 q, this.2])
  have e2 : windRay k q ((edges l).flatMap (clip n H)) = windRay k q ((edges l).flatMap fun e => [e]) :=
    windRay_flatMap k q _ _ _ fun e _ => clip_cross n H k q (fun p => hk p q) hq e
  rw [hcl0, add_zero, e2]
  simp [List.flatMap_singleton']

theorem wind_append (q : Pt K) (a b : List (List (Pt K))) : wind q (a ++ b) = wind q a + wind q b := by
  unfold wind
  rw [List.flatMap_append, windRay_append]

theorem filter_edges (P : List (List (Pt K))) : (P.filter (!·.isEmpty)).flatMap edges = P.flatMap edges := by
  induction P with
  | nil => rfl
  | cons l t ih =>
    rw [List.filter_cons]
    cases l with
    | nil => simpa [edges] using ih
    | cons a l => simp [ih]

/-- One cut of all polygons. -/
theorem cutAll_wind (sort : List (ValIndex K) → List (ValIndex K)) (hsort : ∀ p, (sort p).Perm p) (n : Pt K)
    (hn : n ∈ (axes : List (Pt K))) (h : K) (polys : List (List (Pt K))) (q : Pt K) (hq : dot n q < (n.1 + n.2) * h)
    (hoff : Off (polys.flatMap edges) q) :
    wind q (cutAll sort n h polys) = wind q polys ∧ Off ((cutAll sort n h polys).flatMap edges) q := by
  induction polys with
  | nil => exact ⟨rfl, hoff⟩
  | cons l t ih =>
    rw [List.flatMap_cons] at hoff
    obtain ⟨h1, h2⟩ := ih fun e he => hoff e (List.mem_append_right _ he)
    have e0 : cutAll sort n h (l :: t) = (if l.isEmpty then [] else (cutToHalf sort n ((n.1 + n.2) * h) l).filter (!·.isEmpty))
      ++ cutAll sort n h t := rfl
    have e1 : wind q (l :: t) = wind q [l] + wind q t := wind_append q [l] t
    rw [e0, wind_append, h1, e1]
    by_cases hl : l = []
    · subst hl
      refine ⟨by simp [wind, edges, windRay], ?_⟩
      simpa using h2
    · have hle : l.isEmpty = false := by simpa using hl
      obtain ⟨g1, g2⟩ := cutToHalf_wind sort hsort n hn _ l hl q hq fun e he => hoff e (List.mem_append_left _ he)
      rw [hle]
      simp only [Bool.false_eq_true, if_false]
      refine ⟨?_, ?_⟩
      · rw [← g1]
        unfold wind
        rw [filter_edges]
      · rw [List.flatMap_append, filter_edges]
        intro e he
        rcases List.mem_append.1 he with h | h
        · exact g2 e h
        · exact h2 e h

/-- All vertices are in the half-plane of the cut, and in any other half-plane the polygons were in. -/
theorem cutAll_vertices (sort : List (ValIndex K) → List (ValIndex K)) (hsort : ∀ p, (sort p).Perm p) (n : Pt K) (h : K)
    (polys : List (List (Pt K))) :
    (∀ c ∈ cutAll sort n h polys, c ≠ [] ∧ ∀ p ∈ c, dot n p ≤ (n.1 + n.2) * h)
    ∧ ∀ m M, (∀ l ∈ polys, ∀ p ∈ l, dot m p ≤ M) → ∀ c ∈ cutAll sort n h polys, ∀ p ∈ c, dot m p ≤ M := by
  have hmem : ∀ c ∈ cutAll sort n h polys, c ≠ [] ∧ ∃ l ∈ polys, l ≠ [] ∧ c ∈ cutToHalf sort n ((n.1 + n.2) * h) l := by
    intro c hc
    obtain ⟨l, hl, hc⟩ := List.mem_flatMap.1 hc
    cases l with
    | nil => simp at hc
    | cons a l =>
      simp only [List.isEmpty_cons, Bool.false_eq_true, if_false, List.mem_filter] at hc
      exact ⟨by simpa using hc.2, _, hl, by simp, hc.1⟩
  refine ⟨?_, ?_⟩
  · intro c hc
    obtain ⟨h1, l, hl, hne, hcl⟩ := hmem c hc
    exact ⟨h1, fun p hp => (cutToHalf_vertices sort hsort n _ l hne c hcl p hp).1⟩
  · intro m M hm c hc p hp
    obtain ⟨h1, l, hl, hne, hcl⟩ := hmem c hc
    obtain ⟨e, he, hs⟩ := (cutToHalf_vertices sort hsort n _ l hne c hcl p hp).2
    obtain ⟨v1, v2⟩ := edge_vertices l e he
    exact dot_onSeg m e p M hs (hm l hl _ v1) (hm l hl _ v2)

/-! ### The theorems -/

/-- C123.  Every vertex that `cutPoly` returns is in the window, and no polygon is empty. -/
theorem cutPoly_in_window (sort : List (ValIndex K) → List (ValIndex K)) (hsort : ∀ p, (sort p).Perm p) (xll yll xur yur : K)
    (polys : List (List (Pt K))) : ∀ c ∈ cutPoly sort xll yll xur yur polys, c ≠ [] ∧
      ∀ p ∈ c, xll ≤ p.1 ∧ p.1 ≤ xur ∧ yll ≤ p.2 ∧ p.2 ≤ yur := by
  intro c hc
  unfold cutPoly at hc
  set P1 := cutAll sort (-1, 0) xll polys with hP1
  set P2 := cutAll sort (1, 0) xur P1 with hP2
  set P3 := cutAll sort (0, -1) yll P2 with hP3
  have a1 := cutAll_vertices sort hsort (-1, 0) xll polys
  have a2 := cutAll_vertices sort hsort (1, 0) xur P1
  have a3 := cutAll_vertices sort hsort (0, -1) yll P2
  have a4 := cutAll_vertices sort hsort (0, 1) yur P3
  refine ⟨(a4.1 c hc).1, fun p hp => ?_⟩
  have b1 := a4.2 _ _ (a3.2 _ _ (a2.2 (-1, 0) _ fun l hl p hp => (a1.1 l hl).2 p hp)) c hc p hp
  have b2 := a4.2 _ _ (a3.2 (1, 0) _ fun l hl p hp => (a2.1 l hl).2 p hp) c hc p hp
  have b3 := a4.2 (0, -1) _ (fun l hl p hp => (a3.1 l hl).2 p hp) c hc p hp
  have b4 := (a4.1 c hc).2 p hp
  simp only [dot] at b1 b2 b3 b4
  exact ⟨by linarith, by linarith, by linarith, by linarith⟩

/-- C123.  Around a point inside of the window that is on no edge of the polygons, the polygons that `cutPoly` returns wind as
often as the polygons do; the point is on none of their edges. -/
theorem cutPoly_inside (sort : List (ValIndex K) → List (ValIndex K)) (hsort : ∀ p, (sort p).Perm p) (xll yll xur yur : K)
    (polys : List (List (Pt K))) (q : Pt K) (hx : xll < q.1 ∧ q.1 < xur) (hy : yll < q.2 ∧ q.2 < yur)
    (hoff : Off (polys.flatMap edges) q) :
    wind q (cutPoly sort xll yll xur yur polys) = wind q polys ∧ Off ((cutPoly sort xll yll xur yur polys).flatMap edges) q := by
  unfold cutPoly
  obtain ⟨a1, b1⟩ := cutAll_wind sort hsort (-1, 0) (by simp [axes]) xll polys q (by simp [dot]; exact hx.1) hoff
  obtain ⟨a2, b2⟩ := cutAll_wind sort hsort (1, 0) (by simp [axes]) xur _ q (by simp [dot]; exact hx.2) b1
  obtain ⟨a3, b3⟩ := cutAll_wind sort hsort (0, -1) (by simp [axes]) yll _ q (by simp [dot]; exact hy.1) b2
  obtain ⟨a4, b4⟩ := cutAll_wind sort hsort (0, 1) (by simp [axes]) yur _ q (by simp [dot]; exact hy.2) b3
  exact ⟨a4.trans (a3.trans (a2.trans a1)), b4⟩

/-- Polygons on one side of a point do not wind around it. -/
theorem wind_side (n : Pt K) (hn : n ∈ (axes : List (Pt K))) (polys : List (List (Pt K))) (q : Pt K)
    (h : ∀ l ∈ polys, ∀ p ∈ l, dot n p < dot n q) : wind q polys = 0 ∧ Off (polys.flatMap edges) q := by
  obtain ⟨-, k, hk⟩ := axes_ray n hn
  have hv : ∀ e ∈ polys.flatMap edges, dot n e.1 < dot n q ∧ dot n e.2 < dot n q := by
    intro e he
    obtain ⟨l, hl, he⟩ := List.mem_flatMap.1 he
    obtain ⟨v1, v2⟩ := edge_vertices l e he
    exact ⟨h l hl _ v1, h l hl _ v2⟩
  have hoff : Off (polys.flatMap edges) q := by
    intro e he hs
    obtain ⟨g1, g2⟩ := hv e he
    have := dot_onSeg n e q _ hs (le_max_left _ (dot n e.2)) (le_max_right _ _)
    exact absurd this (not_le.2 (max_lt g1 g2))
  refine ⟨?_, hoff⟩
  rw [← windRay_eq k q polys hoff]
  unfold windRay
  apply List.sum_eq_zero
  intro x hx
  obtain ⟨e, he, rfl⟩ := List.mem_map.1 hx
  obtain ⟨g1, g2⟩ := hv e he
  exact up_below _ _ (by linarith [hk e.1 q]) (by linarith [hk e.2 q])

/-- C123.  Around a point outside of the window, the polygons that `cutPoly` returns do not wind; it is on none of their edges. -/
theorem cutPoly_outside (sort : List (ValIndex K) → List (ValIndex K)) (hsort : ∀ p, (sort p).Perm p) (xll yll xur yur : K)
    (polys : List (List (Pt K))) (q : Pt K) (hq : q.1 < xll ∨ xur < q.1 ∨ q.2 < yll ∨ yur < q.2) :
    wind q (cutPoly sort xll yll xur yur polys) = 0 ∧ Off ((cutPoly sort xll yll xur yur polys).flatMap edges) q := by
  have h := cutPoly_in_window sort hsort xll yll xur yur polys
  rcases hq with g | g | g | g
  · refine wind_side (-1, 0) (by simp [axes]) _ q fun l hl p hp => ?_
    have := (h l hl).2 p hp
    simp only [dot]; linarith
  · refine wind_side (1, 0) (by simp [axes]) _ q fun l hl p hp => ?_
    have := (h l hl).2 p hp
    simp only [dot]; linarith
  · refine wind_side (0, -1) (by simp [axes]) _ q fun l hl p hp => ?_
    have := (h l hl).2 p hp
    simp only [dot]; linarith
  · refine wind_side (0, 1) (by simp [axes]) _ q fun l hl p hp => ?_
    have := (h l hl).2 p hp
    simp only [dot]; linarith

theorem cutAll_unchanged (sort : List (ValIndex K) → List (ValIndex K)) (n : Pt K) (h : K) (polys : List (List (Pt K)))
    (hp : ∀ l ∈ polys, l ≠ [] ∧ ∀ p ∈ l, dot n p < (n.1 + n.2) * h) : cutAll sort n h polys = polys := by
  have h1 : ∀ l ∈ polys, (if l.isEmpty then [] else (cutToHalf sort n ((n.1 + n.2) * h) l).filter (!·.isEmpty)) = [l] := by
    intro l hl
    obtain ⟨hne, hin⟩ := hp l hl
    have hle : l.isEmpty = false := by simpa using hne
    have hv : ∀ i, i < l.length → dot n (vert l i) < (n.1 + n.2) * h := by
      intro i hi
      apply hin
      unfold vert
      rw [List.getD_eq_getElem _ _ hi]
      exact List.getElem_mem _
    have hE : emitAll n ((n.1 + n.2) * h) l = l.map fun p => ⟨p, none⟩ := by
      unfold emitAll
      have e1 : ∀ v ∈ List.range l.length, emit n ((n.1 + n.2) * h) (vert l (if v = 0 then l.length - 1 else v - 1)) (vert l v)
          (vert l ((v + 1) % l.length)) = [⟨vert l v, none⟩] := by
        intro v hv'
        have hv' := List.mem_range.1 hv'
        unfold emit
        dsimp only
        rw [if_pos (hv v hv'), if_pos (hv _ (Nat.mod_lt _ (by omega))).le]
      rw [List.flatMap_congr e1, ← List.map_eq_flatMap]
      apply List.ext_getElem
      · simp
      · intro i g1 g2
        have hi : i < l.length := by simpa using g2
        simp [vert, hi]
    have hO : onCutline n (emitAll n ((n.1 + n.2) * h) l) = [] := by
      rw [hE]
      unfold onCutline
      rw [List.filterMap_eq_nil_iff]
      intro c hc
      have hm := List.fst_mem_of_mem_zipIdx hc
      obtain ⟨p, _, hp⟩ := List.mem_map.1 hm
      rw [← hp]
      rfl
    rw [hle]
    simp only [Bool.false_eq_true, if_false]
    unfold cutToHalf
    dsimp only
    rw [hO]
    simp [hE, hle, Function.comp_def]
  unfold cutAll
  rw [List.flatMap_congr h1]
  simp

/-- C123.  Polygons inside of the window are returned as they are. -/
theorem cutPoly_unchanged (sort : List (ValIndex K) → List (ValIndex K)) (xll yll xur yur : K) (polys : List (List (Pt K)))
    (h : ∀ l ∈ polys, l ≠ [] ∧ ∀ p ∈ l, xll < p.1 ∧ p.1 < xur ∧ yll < p.2 ∧ p.2 < yur) :
    cutPoly sort xll yll xur yur polys = polys := by
  unfold cutPoly
  rw [cutAll_unchanged sort (-1, 0) xll polys, cutAll_unchanged sort (1, 0) xur polys, cutAll_unchanged sort (0, -1) yll polys,
    cutAll_unchanged sort (0, 1) yur polys] <;>
  · intro l hl
    refine ⟨(h l hl).1, fun p hp => ?_⟩
    have := (h l hl).2 p hp
    simp only [dot]
    linarith [this.1, this.2.1, this.2.2.1, this.2.2.2]

/-! ### Concrete cases -/

/-- Insertion sort by position on the cutline. -/
def insSort (l : List (ValIndex ℚ)) : List (ValIndex ℚ) := l.insertionSort fun a b => a.val ≤ b.val

theorem insSort_perm (l : List (ValIndex ℚ)) : (insSort l).Perm l := List.perm_insertionSort _ l

/-- A polygon shaped like the letter U. -/
def letterU : List (Pt ℚ) := [(0, 0), (6, 0), (6, 4), (4, 4), (4, 1), (2, 1), (2, 4), (0, 4)]

/-- The upper part of the letter is two rectangles. -/
example : cutPoly insSort (-1) 2 7 5 [letterU] = [[(6, 2), (6, 4), (4, 4), (4, 2)], [(2, 2), (2, 4), (0, 4), (0, 2)]] := by
  decide +kernel

example : wind (5, 3) [letterU] = 1 ∧ wind (3, 3) [letterU] = 0 ∧ wind (1, 3) [letterU] = 1 := by decide +kernel

example : Off ([letterU].flatMap edges) ((5, 3) : Pt ℚ) := by
  intro e he
  simp only [letterU, List.flatMap_cons, List.flatMap_nil, List.append_nil, edges, List.length_cons, List.length_nil, List.mem_map,
    List.mem_range] at he
  obtain ⟨i, hi, rfl⟩ := he
  rintro ⟨t, h0, h1, h⟩
  have e1 := congrArg Prod.fst h
  have e2 := congrArg Prod.snd h
  interval_cases i <;> simp [vert] at e1 e2 <;> linarith

end Verif.Geom.Poly
