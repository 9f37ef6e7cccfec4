import Mathlib.Tactic.Linarith
import Mathlib.Data.List.Lemmas
import Verif.Geom.DPoly.Erase
import Verif.Geom.DPoly.Query
import Verif.Geom.Poly.AreaProps

/-
C125: bounding boxes, and the closest vertex, edge and annotation.
-/

namespace Verif.Geom.Polys

open Verif.Geom.Poly

variable {K : Type} [Field K] [LinearOrder K]

/-- `m` is a least element. -/
def IsMin (m : K) (l : List K) : Prop := m ∈ l ∧ ∀ x ∈ l, m ≤ x
/-- `m` is a greatest element. -/
def IsMax (m : K) (l : List K) : Prop := m ∈ l ∧ ∀ x ∈ l, x ≤ m

/-- The smallest box around points. -/
def IsBox (b : Box K) (l : List (Pt K)) : Prop :=
  IsMin b.xll (l.map Prod.fst) ∧ IsMin b.yll (l.map Prod.snd) ∧ IsMax b.xur (l.map Prod.fst) ∧ IsMax b.yur (l.map Prod.snd)

omit [Field K] in
theorem minFold (l : List K) (a : K) : IsMin (l.foldl (fun m x => if x < m then x else m) a) (a :: l) := by
  induction l generalizing a with
  | nil => simp [IsMin]
  | cons x l ih =>
    rw [List.foldl_cons]
    obtain ⟨h1, h2⟩ := ih (if x < a then x else a)
    refine ⟨?_, ?_⟩
    · rcases List.mem_cons.mp h1 with h | h
      · by_cases c : x < a
        · rw [if_pos c] at h ⊢; rw [h]; simp
        · rw [if_neg c] at h ⊢; rw [h]; simp
      · exact List.mem_cons_of_mem _ (List.mem_cons_of_mem _ h)
    · have h0 := h2 (if x < a then x else a) (by simp)
      intro y hy
      rcases List.mem_cons.mp hy with h | h
      · subst h; refine le_trans h0 ?_; split
        · exact le_of_lt (by assumption)
        · exact le_rfl
      · rcases List.mem_cons.mp h with h | h
        · subst h; refine le_trans h0 ?_; split
          · exact le_rfl
          · exact not_lt.mp (by assumption)
        · exact h2 y (List.mem_cons_of_mem _ h)

omit [Field K] in
theorem maxFold (l : List K) (a : K) : IsMax (l.foldl (fun m x => if m < x then x else m) a) (a :: l) := by
  induction l generalizing a with
  | nil => simp [IsMax]
  | cons x l ih =>
    rw [List.foldl_cons]
    obtain ⟨h1, h2⟩ := ih (if a < x then x else a)
    refine ⟨?_, ?_⟩
    · rcases List.mem_cons.mp h1 with h | h
      · by_cases c : a < x
        · rw [if_pos c] at h ⊢; rw [h]; simp
        · rw [if_neg c] at h ⊢; rw [h]; simp
      · exact List.mem_cons_of_mem _ (List.mem_cons_of_mem _ h)
    · have h0 := h2 (if a < x then x else a) (by simp)
      intro y hy
      rcases List.mem_cons.mp hy with h | h
      · subst h; refine le_trans ?_ h0; split
        · exact le_of_lt (by assumption)
        · exact le_rfl
      · rcases List.mem_cons.mp h with h | h
        · subst h; refine le_trans ?_ h0; split
          · exact le_rfl
          · exact not_lt.mp (by assumption)
        · exact h2 y (List.mem_cons_of_mem _ h)

theorem minEl_spec (l : List K) (h : l ≠ []) : IsMin (minEl l) l := by
  cases l with
  | nil => exact absurd rfl h
  | cons a l => exact minFold l a

theorem maxEl_spec (l : List K) (h : l ≠ []) : IsMax (maxEl l) l := by
  cases l with
  | nil => exact absurd rfl h
  | cons a l => exact maxFold l a

/-- The box that the code computes from vertices. -/
def boxOf (big : K) (l : List (Pt K)) : Box K :=
  if l.length = 0 then ⟨big, big, -big, -big⟩
  else ⟨minEl (l.map Prod.fst), minEl (l.map Prod.snd), maxEl (l.map Prod.fst), maxEl (l.map Prod.snd)⟩

theorem boxOf_spec (big : K) (l : List (Pt K)) (h : l ≠ []) : IsBox (boxOf big l) l := by
  unfold boxOf
  rw [if_neg (by simpa using h)]
  exact ⟨minEl_spec _ (by simpa using h), minEl_spec _ (by simpa using h), maxEl_spec _ (by simpa using h), maxEl_spec _ (by simpa using h)⟩

theorem bdBox_eq (big : K) (d : DPoly K) (ps : List (Poly K)) (h : Rep d ps) : bdBox big d = boxOf big (ps.flatMap (·.verts)) := by
  unfold bdBox boxOf
  have ht : d.totalNumVerts = (ps.flatMap (·.verts)).length := by rw [h.total, length_flat]
  rw [ht, h.xv, h.yv, List.take_of_length_le (by simp), List.take_of_length_le (by simp)]

/-- A loop that appends a value for every polygon. -/
theorem polyLoop_push {β : Type} (d : DPoly K) (ps : List (Poly K)) (h : Rep d ps) (F : Nat → List K → List K → β) : ∀ (rs as : List (Poly K)) (out : List β),
    ps = as ++ rs →
    polyLoop (fun p s n (out : List β) => out ++ [F p ((d.xv.drop s).take n) ((d.yv.drop s).take n)]) as.length (as.flatMap (·.verts)).length
      (rs.map (·.verts.length)) out
    = out ++ (rs.zipIdx as.length).map fun q => F q.2 (q.1.verts.map Prod.fst) (q.1.verts.map Prod.snd) := by
  intro rs
  induction rs with
  | nil => intro as out _; simp [polyLoop]
  | cons q rs ih =>
    intro as out hq
    have hx : (d.xv.drop (as.flatMap (·.verts)).length).take q.verts.length = q.verts.map Prod.fst := by
      rw [h.xv, hq, List.flatMap_append, List.flatMap_cons, List.map_append, List.map_append]
      rw [List.drop_left' (by simp), List.take_left' (by simp)]
    have hy : (d.yv.drop (as.flatMap (·.verts)).length).take q.verts.length = q.verts.map Prod.snd := by
      rw [h.yv, hq, List.flatMap_append, List.flatMap_cons, List.map_append, List.map_append]
      rw [List.drop_left' (by simp), List.take_left' (by simp)]
    rw [List.map_cons, polyLoop, hx, hy]
    have := ih (as ++ [q]) (out ++ [F as.length (q.verts.map Prod.fst) (q.verts.map Prod.snd)]) (by simp [hq])
    simp only [List.length_append, List.length_cons, List.length_nil, List.flatMap_append, List.flatMap_cons, List.flatMap_nil, List.append_nil] at this
    rw [this, List.zipIdx_cons]
    simp

theorem bdBoxes_eq (big : K) (d : DPoly K) (ps : List (Poly K)) (h : Rep d ps) : bdBoxes big d = ps.map fun q => boxOf big q.verts := by
  have := polyLoop_push d ps h (fun _ xs ys => if xs.length = 0 then (⟨big, big, -big, -big⟩ : Box K) else ⟨minEl xs, minEl ys, maxEl xs, maxEl ys⟩) ps [] [] rfl
  have e : (ps.map fun q => boxOf big q.verts) = (ps.zipIdx 0).map fun q => boxOf big q.1.verts := by
    apply List.ext_getElem?; intro j; simp only [List.getElem?_map, List.getElem?_zipIdx]; cases ps[j]? <;> rfl
  rw [e]
  simp only [List.length_nil, List.flatMap_nil, List.length_map, List.nil_append] at this
  rw [show (ps.zipIdx 0).map (fun q => boxOf big q.1.verts) = _ from this.symm]
  unfold bdBoxes
  rw [take_all d ps h]
  -- the number of vertices is the length of the slice
  have key : ∀ (rs as : List (Poly K)) (out : List (Box K)), ps = as ++ rs →
      polyLoop (fun _ s n (out : List (Box K)) =>
        out ++ [if n = 0 then ⟨big, big, -big, -big⟩
          else ⟨minEl ((d.xv.drop s).take n), minEl ((d.yv.drop s).take n), maxEl ((d.xv.drop s).take n), maxEl ((d.yv.drop s).take n)⟩])
        as.length (as.flatMap (·.verts)).length (rs.map (·.verts.length)) out
      = polyLoop (fun _ s n (out : List (Box K)) =>
        out ++ [if ((d.xv.drop s).take n).length = 0 then ⟨big, big, -big, -big⟩
          else ⟨minEl ((d.xv.drop s).take n), minEl ((d.yv.drop s).take n), maxEl ((d.xv.drop s).take n), maxEl ((d.yv.drop s).take n)⟩])
        as.length (as.flatMap (·.verts)).length (rs.map (·.verts.length)) out := by
    intro rs
    induction rs with
    | nil => intro as out _; rfl
    | cons q rs ih =>
      intro as out hq
      have hl : ((d.xv.drop (as.flatMap (·.verts)).length).take q.verts.length).length = q.verts.length := by
        rw [h.xv, hq, List.flatMap_append, List.flatMap_cons, List.map_append, List.map_append]
        rw [List.drop_left' (by simp), List.take_left' (by simp), List.length_map]
      rw [List.map_cons, polyLoop, polyLoop, hl]
      have := ih (as ++ [q]) (out ++ [if q.verts.length = 0 then ⟨big, big, -big, -big⟩
        else ⟨minEl ((d.xv.drop (as.flatMap (·.verts)).length).take q.verts.length), minEl ((d.yv.drop (as.flatMap (·.verts)).length).take q.verts.length), maxEl ((d.xv.drop (as.flatMap (·.verts)).length).take q.verts.length), maxEl ((d.yv.drop (as.flatMap (·.verts)).length).take q.verts.length)⟩]) (by simp [hq])
      simp only [List.length_append, List.length_cons, List.length_nil, List.flatMap_append, List.flatMap_cons, List.flatMap_nil, List.append_nil] at this
      exact this
  exact key ps [] [] rfl

/-- **Bounding boxes.**  The box of a set with vertices is the smallest box around all of them; so are the boxes of the
polygons, in order; without vertices the box is the inverted one. -/
theorem bdBox_spec (big : K) (d : DPoly K) (ps : List (Poly K)) (h : Rep d ps) :
    (ps.flatMap (·.verts) ≠ [] → IsBox (bdBox big d) (ps.flatMap (·.verts)))
    ∧ (ps.flatMap (·.verts) = [] → bdBox big d = ⟨big, big, -big, -big⟩)
    ∧ (bdBoxes big d).length = ps.length
    ∧ ∀ (i : Nat) (q : Poly K) (b : Box K), ps[i]? = some q → (bdBoxes big d)[i]? = some b →
        (q.verts ≠ [] → IsBox b q.verts) ∧ (q.verts = [] → b = ⟨big, big, -big, -big⟩) := by
  refine ⟨?_, ?_, ?_, ?_⟩
  · intro hne; rw [bdBox_eq big d ps h]; exact boxOf_spec big _ hne
  · intro he; rw [bdBox_eq big d ps h, he]; rfl
  · rw [bdBoxes_eq big d ps h]; simp
  · intro i q b hq hb
    rw [bdBoxes_eq big d ps h, List.getElem?_map, hq] at hb
    simp only [Option.map_some, Option.some.injEq] at hb
    subst hb
    exact ⟨boxOf_spec big _, fun he => by rw [he]; rfl⟩

variable [IsStrictOrderedRing K]

/-- **A transform around the centre of the bounding box** leaves the centre where it is: every vertex `p` goes to
`c + M (p - c)`.  The saved transform is the applied one; nothing happens to a set without vertices. -/
theorem aroundCenter_spec (big a11 a12 a21 a22 : K) (d : DPoly K) (ps : List (Poly K)) (h : Rep d ps) :
    let r := applyTransformAroundBdBoxCenter big a11 a12 a21 a22 d
    (ps.flatMap (·.verts) = [] → r = (d, none))
    ∧ (∀ b : Box K, IsBox b (ps.flatMap (·.verts)) → ∃ T : LinTrans K, r.2 = some T ∧ Rep r.1 (ps.map (Poly.onVerts (List.map T.app)))
      ∧ ∀ p : Pt K, T.app p = ((b.xll + b.xur) / 2 + (a11 * (p.1 - (b.xll + b.xur) / 2) + a12 * (p.2 - (b.yll + b.yur) / 2)),
        (b.yll + b.yur) / 2 + (a21 * (p.1 - (b.xll + b.xur) / 2) + a22 * (p.2 - (b.yll + b.yur) / 2)))) := by
  intro r
  have ht : d.totalNumVerts = (ps.flatMap (·.verts)).length := by rw [h.total, length_flat]
  refine ⟨?_, ?_⟩
  · intro he
    show applyTransformAroundBdBoxCenter big a11 a12 a21 a22 d = _
    unfold applyTransformAroundBdBoxCenter
    rw [if_pos (by rw [ht, he]; rfl)]
  · intro b hb
    have hne : ps.flatMap (·.verts) ≠ [] := by
      intro he; rw [he] at hb; exact absurd hb.1.1 (by simp)
    have hb' := boxOf_spec big _ hne
    rw [← bdBox_eq big d ps h] at hb'
    have e1 : (bdBox big d).xll = b.xll := le_antisymm (hb'.1.2 _ hb.1.1) (hb.1.2 _ hb'.1.1)
    have e2 : (bdBox big d).yll = b.yll := le_antisymm (hb'.2.1.2 _ hb.2.1.1) (hb.2.1.2 _ hb'.2.1.1)
    have e3 : (bdBox big d).xur = b.xur := le_antisymm (hb.2.2.1.2 _ hb'.2.2.1.1) (hb'.2.2.1.2 _ hb.2.2.1.1)
    have e4 : (bdBox big d).yur = b.yur := le_antisymm (hb.2.2.2.2 _ hb'.2.2.2.1) (hb'.2.2.2.2 _ hb.2.2.2.1)
    have hn : ¬ d.totalNumVerts = 0 := by rw [ht]; exact fun h0 => hne (List.length_eq_zero_iff.mp h0)
    have hr : r = ((applyTransform a11 a12 a21 a22
        ((b.xll + b.xur) / 2 - a11 * ((b.xll + b.xur) / 2) - a12 * ((b.yll + b.yur) / 2))
        ((b.yll + b.yur) / 2 - a21 * ((b.xll + b.xur) / 2) - a22 * ((b.yll + b.yur) / 2)) d).1,
        some (applyTransform a11 a12 a21 a22
        ((b.xll + b.xur) / 2 - a11 * ((b.xll + b.xur) / 2) - a12 * ((b.yll + b.yur) / 2))
        ((b.yll + b.yur) / 2 - a21 * ((b.xll + b.xur) / 2) - a22 * ((b.yll + b.yur) / 2)) d).2) := by
      show applyTransformAroundBdBoxCenter big a11 a12 a21 a22 d = _
      unfold applyTransformAroundBdBoxCenter bdBoxCenter
      rw [if_neg hn]
      simp only [e1, e2, e3, e4]
    rw [hr]
    refine ⟨_, rfl, (move_rep d ps h).2.2.2 a11 a12 a21 a22 _ _ |>.2.2, ?_⟩
    intro p
    simp only [LinTrans.app, applyTransform]
    ext <;> simp only <;> ring

/-! ### Closest vertex, edge, annotation -/

omit [IsStrictOrderedRing K] [Field K] in
theorem closest_fold {C : Type} (dist : C → K) (l : List C) (st : C) :
    let r := l.foldl (fun st c => if dist c ≤ dist st then c else st) st
    (r = st ∧ ∀ c ∈ l, dist st < dist c) ∨
    ∃ pre c post, l = pre ++ c :: post ∧ r = c ∧ dist c ≤ dist st ∧ (∀ x ∈ pre, dist c ≤ dist x) ∧ ∀ x ∈ post, dist c < dist x := by
  induction l generalizing st with
  | nil => exact Or.inl ⟨rfl, by simp⟩
  | cons a l ih =>
    simp only [List.foldl_cons]
    by_cases h : dist a ≤ dist st
    · rw [if_pos h]
      rcases ih a with ⟨h1, h2⟩ | ⟨pre, c, post, e, h1, h2, h3, h4⟩
      · exact Or.inr ⟨[], a, l, rfl, h1, h, by simp, h2⟩
      · refine Or.inr ⟨a :: pre, c, post, by rw [e]; rfl, h1, h2.trans h, ?_, h4⟩
        intro x hx
        rcases List.mem_cons.mp hx with rfl | hx
        · exact h2
        · exact h3 x hx
    · rw [if_neg h]
      rcases ih st with ⟨h1, h2⟩ | ⟨pre, c, post, e, h1, h2, h3, h4⟩
      · refine Or.inl ⟨h1, ?_⟩
        intro x hx
        rcases List.mem_cons.mp hx with rfl | hx
        · exact not_le.mp h
        · exact h2 x hx
      · refine Or.inr ⟨a :: pre, c, post, by rw [e]; rfl, h1, h2, ?_, h4⟩
        intro x hx
        rcases List.mem_cons.mp hx with rfl | hx
        · exact h2.trans (le_of_lt (not_le.mp h))
        · exact h3 x hx

/-- What is found for the places of all the vertices, in order. -/
def hits (g : Nat → Nat → Poly K → Hit K) (p : Nat) (ps : List (Poly K)) : List (Hit K) :=
  (ps.zipIdx p).flatMap fun q => (List.range q.1.verts.length).map fun v => g q.2 v q.1

omit [IsStrictOrderedRing K] [Field K] in
theorem loop_hits (g : Nat → Nat → Poly K → Hit K) (G : Nat → Nat → Nat → Nat → Hit K) (ps : List (Poly K))
    (hG : ∀ as q rs, ps = as ++ q :: rs → ∀ v, v < q.verts.length →
      G as.length (as.flatMap (·.verts)).length q.verts.length v = g as.length v q) :
    ∀ (rs as : List (Poly K)) (st : Hit K), ps = as ++ rs →
    polyLoop (fun p s n st => forRange n (fun v (st : Hit K) => if (G p s n v).dist ≤ st.dist then G p s n v else st) st)
      as.length (as.flatMap (·.verts)).length (rs.map (·.verts.length)) st
    = (hits g as.length rs).foldl (fun st c => if c.dist ≤ st.dist then c else st) st := by
  intro rs
  induction rs with
  | nil => intro as st _; rfl
  | cons q rs ih =>
    intro as st hq
    rw [List.map_cons, polyLoop]
    have e : forRange q.verts.length (fun v (st : Hit K) =>
          if (G as.length (as.flatMap (·.verts)).length q.verts.length v).dist ≤ st.dist
          then G as.length (as.flatMap (·.verts)).length q.verts.length v else st) st
        = ((List.range q.verts.length).map fun v => g as.length v q).foldl (fun st c => if c.dist ≤ st.dist then c else st) st := by
      rw [List.foldl_map]
      unfold forRange
      apply List.foldl_ext
      intro a v hv
      simp only [hG as q rs hq v (List.mem_range.mp hv)]
    rw [e]
    have := ih (as ++ [q]) (((List.range q.verts.length).map fun v => g as.length v q).foldl (fun st c => if c.dist ≤ st.dist then c else st) st) (by simp [hq])
    simp only [List.length_append, List.length_cons, List.length_nil, List.flatMap_append, List.flatMap_cons, List.flatMap_nil, List.append_nil] at this
    rw [this]
    simp only [hits, List.zipIdx_cons, List.flatMap_cons, List.foldl_append, Nat.zero_add]

omit [IsStrictOrderedRing K] [Field K] [LinearOrder K] in
theorem mem_hits (g : Nat → Nat → Poly K → Hit K) (ps : List (Poly K)) (c : Hit K) :
    c ∈ hits g 0 ps ↔ ∃ p v q, ps[p]? = some q ∧ v < q.verts.length ∧ c = g p v q := by
  unfold hits
  rw [List.mem_flatMap]
  constructor
  · rintro ⟨⟨q, p⟩, hq, hc⟩
    obtain ⟨v, hv, rfl⟩ := List.mem_map.mp hc
    exact ⟨p, v, q, List.mk_mem_zipIdx_iff_getElem?.mp hq, List.mem_range.mp hv, rfl⟩
  · rintro ⟨p, v, q, hq, hv, rfl⟩
    exact ⟨(q, p), List.mk_mem_zipIdx_iff_getElem?.mpr hq, List.mem_map.mpr ⟨v, List.mem_range.mpr hv, rfl⟩⟩

/-- The places are in order. -/
def Later (a b : Hit K) : Prop := a.poly < b.poly ∨ a.poly = b.poly ∧ a.vert < b.vert

omit [IsStrictOrderedRing K] [Field K] [LinearOrder K] in
theorem hits_sorted (g : Nat → Nat → Poly K → Hit K) (hp : ∀ p v q, (g p v q).poly = p ∧ (g p v q).vert = v) (ps : List (Poly K)) (k : Nat) :
    (hits g k ps).Pairwise Later := by
  induction ps generalizing k with
  | nil => simp [hits]
  | cons q ps ih =>
    unfold hits
    rw [List.zipIdx_cons, List.flatMap_cons, List.pairwise_append]
    refine ⟨?_, ih (k + 1), ?_⟩
    · rw [List.pairwise_map]
      refine List.pairwise_lt_range.imp ?_
      intro a b hab
      right; simp only [hp]; exact ⟨trivial, by exact_mod_cast hab⟩
    · intro a ha b hb
      obtain ⟨v, hv, rfl⟩ := List.mem_map.mp ha
      obtain ⟨⟨q', p'⟩, hq', hb⟩ := List.mem_flatMap.mp hb
      obtain ⟨v', hv', rfl⟩ := List.mem_map.mp hb
      left; simp only [hp]
      have := List.le_snd_of_mem_zipIdx hq'
      simp only at this
      omega

omit [IsStrictOrderedRing K] [Field K] in
/-- The search, in general: the last of the best places. -/
theorem search_spec (g : Nat → Nat → Poly K → Hit K) (hp : ∀ p v q, (g p v q).poly = p ∧ (g p v q).vert = v) (ps : List (Poly K)) (st : Hit K)
    (hbig : ∀ p v q, ps[p]? = some q → v < q.verts.length → (g p v q).dist ≤ st.dist) :
    let r := (hits g 0 ps).foldl (fun st c => if c.dist ≤ st.dist then c else st) st
    (ps.flatMap (·.verts) = [] → r = st) ∧
    (ps.flatMap (·.verts) ≠ [] → ∃ p v q, ps[p]? = some q ∧ v < q.verts.length ∧ r = g p v q ∧
      ∀ p' v' q', ps[p']? = some q' → v' < q'.verts.length →
        r.dist ≤ (g p' v' q').dist ∧ ((p < p' ∨ p = p' ∧ v < v') → r.dist < (g p' v' q').dist)) := by
  intro r
  constructor
  · intro he
    have : hits g 0 ps = [] := by
      rw [List.eq_nil_iff_forall_not_mem]
      intro c hc
      obtain ⟨p, v, q, hq, hv, _⟩ := (mem_hits g ps c).mp hc
      have hqm := List.mem_of_getElem? hq
      have := List.flatMap_eq_nil_iff.mp he q hqm
      rw [this] at hv; simp at hv
    show (hits g 0 ps).foldl _ st = st
    rw [this]; rfl
  · intro hne
    rcases closest_fold (fun c : Hit K => c.dist) (hits g 0 ps) st with ⟨_, h2⟩ | ⟨pre, c, post, e, h1, h2, h3, h4⟩
    · exfalso
      obtain ⟨x, hx⟩ := List.exists_mem_of_ne_nil _ hne
      obtain ⟨q, hq, hx⟩ := List.mem_flatMap.mp hx
      obtain ⟨p, hpq⟩ := List.mem_iff_getElem?.mp hq
      have hv : 0 < q.verts.length := List.length_pos_of_mem hx
      have := h2 _ ((mem_hits g ps _).mpr ⟨p, 0, q, hpq, hv, rfl⟩)
      exact absurd (hbig p 0 q hpq hv) (not_le.mpr this)
    · have hc : c ∈ hits g 0 ps := by rw [e]; simp
      obtain ⟨p, v, q, hq, hv, hcg⟩ := (mem_hits g ps c).mp hc
      refine ⟨p, v, q, hq, hv, h1.trans hcg, ?_⟩
      have hr : r = c := h1
      rw [hr]
      intro p' v' q' hq' hv'
      have hm : g p' v' q' ∈ hits g 0 ps := (mem_hits g ps _).mpr ⟨p', v', q', hq', hv', rfl⟩
      rw [e] at hm
      constructor
      · rcases List.mem_append.mp hm with hm | hm
        · exact h3 _ hm
        · rcases List.mem_cons.mp hm with hm | hm
          · rw [hm]
          · exact le_of_lt (h4 _ hm)
      · intro hl
        have hs := hits_sorted g hp ps 0
        rw [e] at hs
        rcases List.mem_append.mp hm with hm | hm
        · exfalso
          have := (List.pairwise_append.mp hs).2.2 _ hm c (by simp)
          rw [hcg] at this
          simp only [Later, hp] at this
          omega
        · rcases List.mem_cons.mp hm with hm | hm
          · exfalso
            have e1 := congrArg Hit.poly hm
            have e2 := congrArg Hit.vert hm
            rw [hcg] at e1 e2
            simp only [hp] at e1 e2
            omega
          · exact h4 _ hm

omit [LinearOrder K] [IsStrictOrderedRing K] in
theorem getD_vert (d : DPoly K) (ps : List (Poly K)) (h : Rep d ps) (as rs : List (Poly K)) (q : Poly K) (e : ps = as ++ q :: rs) (v : Nat) (hv : v < q.verts.length) :
    d.xv.getD ((as.flatMap (·.verts)).length + v) 0 = (q.verts.getD v (0, 0)).1 ∧ d.yv.getD ((as.flatMap (·.verts)).length + v) 0 = (q.verts.getD v (0, 0)).2 := by
  have hf : ps.flatMap (·.verts) = as.flatMap (·.verts) ++ (q.verts ++ rs.flatMap (·.verts)) := by rw [e, List.flatMap_append, List.flatMap_cons]
  have hg : (ps.flatMap (·.verts))[(as.flatMap (·.verts)).length + v]? = q.verts[v]? := by
    rw [hf, List.getElem?_append_right (by omega), Nat.add_sub_cancel_left, List.getElem?_append_left hv]
  rw [h.xv, h.yv]
  simp only [List.getD_eq_getElem?_getD, List.getElem?_map, hg]
  rw [List.getElem?_eq_getElem hv]
  exact ⟨rfl, rfl⟩

/-- The distance of two points. -/
def ptDist (rt : K → K) (a b : Pt K) : K := rt ((a.1 - b.1) * (a.1 - b.1) + (a.2 - b.2) * (a.2 - b.2))

omit [IsStrictOrderedRing K] in
/-- **The closest vertex.**  If there are vertices, what is returned is a vertex, with its place and its distance; no vertex is
closer, and those at later places are farther.  Without vertices it is the point itself and the largest number. -/
theorem closestVertex_spec (rt : K → K) (big x0 y0 : K) (d : DPoly K) (ps : List (Poly K)) (h : Rep d ps)
    (hbig : ∀ q ∈ ps, ∀ a ∈ q.verts, ptDist rt (x0, y0) a ≤ big) :
    let r := findClosestPolyVertex rt big x0 y0 d
    (ps.flatMap (·.verts) = [] → r = ⟨-1, -1, x0, y0, big⟩) ∧
    (ps.flatMap (·.verts) ≠ [] → ∃ (p v : Nat) (q : Poly K), ps[p]? = some q ∧ q.verts[v]? = some (r.x, r.y) ∧ r.poly = p ∧ r.vert = v
      ∧ r.dist = ptDist rt (x0, y0) (r.x, r.y)
      ∧ ∀ (p' v' : Nat) (q' : Poly K) (a : Pt K), ps[p']? = some q' → q'.verts[v']? = some a →
        r.dist ≤ ptDist rt (x0, y0) a ∧ ((p < p' ∨ p = p' ∧ v < v') → r.dist < ptDist rt (x0, y0) a)) := by
  intro r
  set g : Nat → Nat → Poly K → Hit K := fun p v q =>
    ⟨p, v, (q.verts.getD v (0, 0)).1, (q.verts.getD v (0, 0)).2, ptDist rt (x0, y0) (q.verts.getD v (0, 0))⟩ with hg
  have hd : ∀ a : Pt K, dst rt x0 y0 a.1 a.2 = ptDist rt (x0, y0) a := by
    intro a; unfold dst ptDist; congr 1; simp only []; ring
  have hr : r = (hits g 0 ps).foldl (fun st c => if c.dist ≤ st.dist then c else st) ⟨-1, -1, x0, y0, big⟩ := by
    have := loop_hits g (fun p s _ v => ⟨p, v, d.xv.getD (s + v) 0, d.yv.getD (s + v) 0, dst rt x0 y0 (d.xv.getD (s + v) 0) (d.yv.getD (s + v) 0)⟩) ps
      (by
        intro as q rs e v hv
        obtain ⟨e1, e2⟩ := getD_vert d ps h as rs q e v hv
        simp only [e1, e2, hg, hd]) ps [] ⟨-1, -1, x0, y0, big⟩ rfl
    rw [List.length_nil] at this
    rw [← this]
    show findClosestPolyVertex rt big x0 y0 d = _
    unfold findClosestPolyVertex
    rw [take_all d ps h]; rfl
  have hv : ∀ (v : Nat) (q : Poly K) (a : Pt K), q.verts[v]? = some a → q.verts.getD v (0, 0) = a := by
    intro v q a ha; rw [List.getD_eq_getElem?_getD, ha]; rfl
  have key := search_spec g (fun p v q => ⟨rfl, rfl⟩) ps ⟨-1, -1, x0, y0, big⟩ (by
    intro p v q hq hlt
    simp only [hg]
    rw [hv v q q.verts[v] (List.getElem?_eq_getElem hlt)]
    exact hbig q (List.mem_of_getElem? hq) _ (List.getElem_mem hlt))
  rw [← hr] at key
  refine ⟨key.1, ?_⟩
  intro hne
  obtain ⟨p, v, q, hq, hlt, hrg, hall⟩ := key.2 hne
  have e1 : q.verts[v]? = some (r.x, r.y) := by
    rw [List.getElem?_eq_getElem hlt, hrg]; simp only [hg]
    rw [hv v q q.verts[v] (List.getElem?_eq_getElem hlt)]
  refine ⟨p, v, q, hq, e1, by rw [hrg], by rw [hrg], ?_, ?_⟩
  · rw [hrg]
  · intro p' v' q' a hq' ha
    have hlt' : v' < q'.verts.length := (List.getElem?_eq_some_iff.mp ha).1
    have := hall p' v' q' hq' hlt'
    simp only [hg, hv v' q' a ha] at this
    exact this

/-- **The closest edge.**  What is returned is a point of the edge from a vertex to the next one (from the last to the first),
with its place and its distance; no point of any such edge is closer, and the edges at later places are farther. -/
theorem closestEdge_spec (rt : K → K) (hrt : ∀ a b, 0 ≤ a → a ≤ b → rt a ≤ rt b) (big x0 y0 : K) (d : DPoly K) (ps : List (Poly K)) (h : Rep d ps)
    (hbig : ∀ q ∈ ps, ∀ a ∈ q.verts, ptDist rt (x0, y0) a ≤ big) (hne : ps.flatMap (·.verts) ≠ []) :
    let r := findClosestPolyEdge rt big x0 y0 d
    ∃ (p v : Nat) (q : Poly K) (a b : Pt K), ps[p]? = some q ∧ q.verts[v]? = some a ∧ q.verts[(v + 1) % q.verts.length]? = some b
      ∧ r.poly = p ∧ r.vert = v ∧ OnSeg (a, b) (r.x, r.y) ∧ r.dist = ptDist rt (x0, y0) (r.x, r.y)
      ∧ ∀ (p' v' : Nat) (q' : Poly K) (a' b' c : Pt K), ps[p']? = some q' → q'.verts[v']? = some a' → q'.verts[(v' + 1) % q'.verts.length]? = some b' →
        OnSeg (a', b') c → r.dist ≤ ptDist rt (x0, y0) c := by
  intro r
  set g : Nat → Nat → Poly K → Hit K := fun p v q =>
    let m := minPt (x0, y0) (q.verts.getD v (0, 0)) (q.verts.getD ((v + 1) % q.verts.length) (0, 0))
    ⟨p, v, m.1, m.2, ptDist rt (x0, y0) m⟩ with hg
  have hr : r = (hits g 0 ps).foldl (fun st c => if c.dist ≤ st.dist then c else st) ⟨-1, -1, big, big, big⟩ := by
    have := loop_hits g (fun p s n v =>
        let m := minPt (x0, y0) (d.xv.getD (s + v) 0, d.yv.getD (s + v) 0) (d.xv.getD (s + (v + 1) % n) 0, d.yv.getD (s + (v + 1) % n) 0)
        ⟨p, v, m.1, m.2, rt ((x0 - m.1) * (x0 - m.1) + (y0 - m.2) * (y0 - m.2))⟩) ps
      (by
        intro as q rs e v hv
        obtain ⟨e1, e2⟩ := getD_vert d ps h as rs q e v hv
        obtain ⟨e3, e4⟩ := getD_vert d ps h as rs q e ((v + 1) % q.verts.length) (Nat.mod_lt _ (by omega))
        simp only [e1, e2, e3, e4, hg]; rfl) ps [] ⟨-1, -1, big, big, big⟩ rfl
    rw [List.length_nil] at this
    rw [← this]
    show findClosestPolyEdge rt big x0 y0 d = _
    unfold findClosestPolyEdge
    rw [take_all d ps h]; rfl
  have hv : ∀ (v : Nat) (q : Poly K) (a : Pt K), q.verts[v]? = some a → q.verts.getD v (0, 0) = a := by
    intro v q a ha; rw [List.getD_eq_getElem?_getD, ha]; rfl
  have hle : ∀ a b c : Pt K, OnSeg (a, b) c → ptDist rt (x0, y0) (minPt (x0, y0) a b) ≤ ptDist rt (x0, y0) c := by
    intro a b c hc
    have := (minPt_spec (x0, y0) a b).2 c hc
    unfold dist2 at this
    refine hrt _ _ (add_nonneg (mul_self_nonneg _) (mul_self_nonneg _)) ?_
    simp only [] at this ⊢
    nlinarith [this]
  have hend : ∀ a b : Pt K, OnSeg (a, b) a := by
    intro a b; exact ⟨0, le_rfl, zero_le_one, by ext <;> simp⟩
  have key := search_spec g (fun p v q => ⟨rfl, rfl⟩) ps ⟨-1, -1, big, big, big⟩ (by
    intro p v q hq hlt
    simp only [hg]
    rw [hv v q q.verts[v] (List.getElem?_eq_getElem hlt)]
    refine le_trans (hle _ _ _ (hend _ _)) ?_
    exact hbig q (List.mem_of_getElem? hq) _ (List.getElem_mem hlt))
  rw [← hr] at key
  obtain ⟨p, v, q, hq, hlt, hrg, hall⟩ := key.2 hne
  have hlt2 : (v + 1) % q.verts.length < q.verts.length := Nat.mod_lt _ (by omega)
  have e1 := hv v q q.verts[v] (List.getElem?_eq_getElem hlt)
  have e2 := hv _ q _ (List.getElem?_eq_getElem hlt2)
  refine ⟨p, v, q, q.verts[v], q.verts[(v + 1) % q.verts.length], hq, List.getElem?_eq_getElem hlt, List.getElem?_eq_getElem hlt2,
    by rw [hrg], by rw [hrg], ?_, ?_, ?_⟩
  · rw [hrg]; simp only [hg, e1, e2]; exact (minPt_spec (x0, y0) _ _).1
  · rw [hrg]
  · intro p' v' q' a' b' c hq' ha hb hc
    have hlt' : v' < q'.verts.length := (List.getElem?_eq_some_iff.mp ha).1
    have := (hall p' v' q' hq' hlt').1
    simp only [hg, hv v' q' a' ha, hv _ q' b' hb] at this
    exact this.trans (hle _ _ _ hc)

/-- The edge found can be the one from the last to the first vertex of a line that is not closed: the point `(5, 1)` is 5 from
the line `(0, 0), (0, 10), (10, 10), (10, 0)`, but an edge at a distance of 1 is found (squares of distances here). -/
theorem closestEdge_open :
    let d : DPoly ℚ := setPolygon 4 [0, 0, 10, 10] [0, 10, 10, 0] false "red" ""
    findClosestPolyEdge id 1000000 5 1 d = ⟨0, 3, 5, 0, 1⟩ := by decide +kernel

omit [IsStrictOrderedRing K] in
/-- **The closest annotation**: its index and its distance; no annotation is closer. -/
theorem closestAnno_spec (rt : K → K) (big x0 y0 : K) (d : DPoly K) (hbig : ∀ a ∈ d.annos, ptDist rt (x0, y0) (a.x, a.y) ≤ big) :
    let r := findClosestAnnotation rt big x0 y0 d
    (d.annos = [] → r = (-1, big)) ∧
    (d.annos ≠ [] → ∃ (i : Nat) (a : Anno K), d.annos[i]? = some a ∧ r = ((i : Int), ptDist rt (x0, y0) (a.x, a.y))
      ∧ ∀ (j : Nat) (b : Anno K), d.annos[j]? = some b → r.2 ≤ ptDist rt (x0, y0) (b.x, b.y)) := by
  intro r
  have hd : ∀ a : Anno K, dst rt x0 y0 a.x a.y = ptDist rt (x0, y0) (a.x, a.y) := by
    intro a; unfold dst ptDist; congr 1; simp only []; ring
  set f : Nat → Int × K := fun i => ((i : Int), ptDist rt (x0, y0) ((d.annos.getD i ⟨0, 0, ""⟩).x, (d.annos.getD i ⟨0, 0, ""⟩).y)) with hf
  have hr : r = ((List.range d.annos.length).map f).foldl (fun st c => if c.2 ≤ st.2 then c else st) (-1, big) := by
    rw [List.foldl_map]
    show findClosestAnnotation rt big x0 y0 d = _
    unfold findClosestAnnotation forRange
    simp only [hd, hf]
  constructor
  · intro he; rw [hr, he]; rfl
  · intro hne
    have hv : ∀ (j : Nat) (b : Anno K), d.annos[j]? = some b → f j ∈ (List.range d.annos.length).map f ∧ f j = ((j : Int), ptDist rt (x0, y0) (b.x, b.y)) := by
      intro j b hb
      refine ⟨List.mem_map.mpr ⟨j, List.mem_range.mpr (List.getElem?_eq_some_iff.mp hb).1, rfl⟩, ?_⟩
      simp only [hf, List.getD_eq_getElem?_getD, hb]; rfl
    rcases closest_fold (fun c : Int × K => c.2) ((List.range d.annos.length).map f) (-1, big) with ⟨_, h2⟩ | ⟨pre, c, post, e, h1, h2, h3, h4⟩
    · exfalso
      obtain ⟨b, hb⟩ := List.exists_mem_of_ne_nil _ hne
      obtain ⟨j, hj⟩ := List.mem_iff_getElem?.mp hb
      have := h2 _ (hv j b hj).1
      rw [(hv j b hj).2] at this
      exact absurd (hbig b hb) (not_le.mpr this)
    · rw [← hr] at h1
      have hc : c ∈ (List.range d.annos.length).map f := by rw [e]; simp
      obtain ⟨i, hi, hic⟩ := List.mem_map.mp hc
      have hi := List.mem_range.mp hi
      have hget := List.getElem?_eq_getElem hi
      refine ⟨i, d.annos[i], hget, ?_, ?_⟩
      · rw [h1, ← hic]; exact (hv i _ hget).2
      · intro j b hb
        obtain ⟨hm, hj⟩ := hv j b hb
        have : c.2 ≤ (f j).2 := by
          rw [e] at hm
          rcases List.mem_append.mp hm with hm | hm
          · exact h3 _ hm
          · rcases List.mem_cons.mp hm with hm | hm
            · rw [hm]
            · exact le_of_lt (h4 _ hm)
        rw [h1]; rw [hj] at this; exact this

/-! ### Cases -/

example : findClosestPolyVertex id 1000000 4 4 exD = ⟨1, 0, 5, 5, 2⟩ := by decide +kernel
example : ∀ q ∈ exA, ∀ a ∈ q.verts, ptDist id ((4 : ℚ), (4 : ℚ)) a ≤ 1000000 := by decide +kernel
example : findClosestPolyEdge id 1000000 (1/2) (-1) exD = ⟨0, 0, 1/2, 0, 1⟩ := by decide +kernel
example : bdBox 1000000 exD = ⟨0, 0, 6, 6⟩ ∧ bdBoxes 1000000 exD = [⟨0, 0, 1, 1⟩, ⟨5, 5, 6, 6⟩] := by decide +kernel
example : (applyTransformAroundBdBoxCenter 1000000 0 (-1) 1 0 exD).1.xv = [6, 6, 5, 1, 0] := by decide +kernel

end Verif.Geom.Polys
