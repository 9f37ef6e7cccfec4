import Verif.Stereo.SGMLines
import Mathlib.Data.List.NodupEquivFin

/-! Choosing a disparity from the accumulated costs, and the search ranges. -/

namespace VW.SGM

theorem disps_getElem? (b : Range) (i : Nat) (hi : i < b.disps.length) :
    b.disps[i]? = some (b.x0 + ((i % b.width : Nat) : Int), b.y0 + ((i / b.width : Nat) : Int)) := by
  rw [length_disps] at hi
  have hw : 0 < b.width := by
    rcases Nat.eq_zero_or_pos b.width with h | h
    · rw [h] at hi; simp at hi
    · exact h
  have hdiv : i / b.width < b.height := by rw [Nat.div_lt_iff_lt_mul hw]; exact hi
  have hmod : i % b.width < b.width := Nat.mod_lt _ hw
  have hsplit : i = (i / b.width) * b.width + i % b.width := by
    have := Nat.div_add_mod i b.width
    rw [Nat.mul_comm] at this
    omega
  conv_lhs => rw [hsplit]
  unfold Range.disps
  rw [getElem?_flatMap_const _ b.width _ (by intro x _; simp) _ _ hmod, List.getElem?_range hdiv, Option.bind_some, List.getElem?_map,
    List.getElem?_range hmod]
  rfl

/-- The disparity of an index, by `disp_index_to_xy`, is the one at that place of the packed vectors. -/
theorem index_inverse (b : Range) (i : Nat) (hi : i < b.disps.length) : b.disps[i]? = some (indexToXY b i) := by
  rw [disps_getElem? b i hi]
  have hw : (b.width : Int) = b.x1 - b.x0 + 1 := by
    rw [length_disps] at hi
    have : 0 < b.width := by
      rcases Nat.eq_zero_or_pos b.width with h | h
      · rw [h] at hi; simp at hi
      · exact h
    unfold Range.width at *
    omega
  unfold indexToXY
  dsimp only
  rw [← hw]
  have h1 : Int.tdiv (i : Int) (b.width : Int) = ((i / b.width : Nat) : Int) := by
    rw [Int.tdiv_eq_ediv_of_nonneg (by omega)]
    rfl
  rw [h1]
  congr 1
  have := Nat.div_add_mod i b.width
  have h2 : (i : Int) = b.width * ((i / b.width : Nat) : Int) + ((i % b.width : Nat) : Int) := by
    exact_mod_cast this.symm
  ext <;> dsimp only
  · rw [Int.mul_comm]
    omega
  · omega

theorem index_of_disp (b : Range) (e : Pt) (he : b.has e) : indexToXY b (b.disps.idxOf e) = e := by
  have hi : b.disps.idxOf e < b.disps.length := List.idxOf_lt_length_of_mem ((mem_disps _ e).2 he)
  have h := index_inverse b _ hi
  rw [List.getElem?_eq_getElem hi, List.getElem_idxOf hi] at h
  exact (Option.some.inj h).symm

/-! ### The scan for the minimum -/

theorem scan_append (v : List Nat) (x : Nat) : scan (v ++ [x]) =
    (let st := scan v
     let mc := if x = st.1 then st.2.2 + 1 else st.2.2
     if x < st.1 then (x, v.length, 1) else (st.1, st.2.1, mc)) := by
  unfold scan
  rw [List.zipIdx_append, List.foldl_append]
  simp only [List.zipIdx_cons, List.zipIdx_nil, List.foldl_cons, List.foldl_nil, Nat.zero_add]

/-- The scan finds the least value, a place where it is, and how often it occurs. -/
theorem scan_spec (v : List Nat) (hv : ∀ x ∈ v, x ≤ 65535) :
    (∀ x ∈ v, (scan v).1 ≤ x) ∧ (v ≠ [] → v[(scan v).2.1]? = some (scan v).1) ∧ (scan v).2.2 = v.count (scan v).1 ∧
      (v = [] → scan v = (65535, 0, 0)) ∧ (scan v).1 ≤ 65535 ∧ ((scan v).1 = 65535 → (scan v).2.1 = 0) := by
  induction v using List.reverseRecOn with
  | nil => exact ⟨by simp, by simp, rfl, fun _ => rfl, by decide, fun _ => rfl⟩
  | append_singleton v x ih =>
    obtain ⟨h1, h2, h3, h4, h5, h6⟩ := ih (fun y hy => hv y (by simp [hy]))
    have hx := hv x (by simp)
    rw [scan_append]
    dsimp only
    by_cases hlt : x < (scan v).1
    · rw [if_pos hlt]
      dsimp only
      refine ⟨?_, ?_, ?_, by simp, hx, by omega⟩
      · intro y hy
        rw [List.mem_append, List.mem_singleton] at hy
        rcases hy with hy | hy
        · have := h1 y hy; omega
        · omega
      · intro _
        rw [List.getElem?_append_right (Nat.le_refl _)]
        simp
      · rw [List.count_append, List.count_eq_zero_of_not_mem]
        · simp
        · intro hm
          have := h1 x hm
          omega
    · rw [if_neg hlt]
      dsimp only
      refine ⟨?_, ?_, ?_, by simp, h5, h6⟩
      · intro y hy
        rw [List.mem_append, List.mem_singleton] at hy
        rcases hy with hy | hy
        · exact h1 y hy
        · omega
      · intro _
        by_cases hv0 : v = []
        · have e := h4 hv0
          have : x = 65535 := by rw [e] at hlt; simp only at hlt; omega
          subst hv0
          rw [e]
          simp [this]
        · have := h2 hv0
          have hl : (scan v).2.1 < v.length := by
            rcases Nat.lt_or_ge (scan v).2.1 v.length with h | h
            · exact h
            · rw [List.getElem?_eq_none h] at this
              cases this
          rw [List.getElem?_append_left hl]
          exact this
      · rw [List.count_append, h3]
        by_cases hxe : x = (scan v).1
        · rw [if_pos hxe, ← hxe]; simp
        · rw [if_neg hxe]
          have : List.count (scan v).1 [x] = 0 := by
            rw [List.count_eq_zero]
            simpa using fun h => hxe h.symm
          omega

theorem scan_index (v : List Nat) (hv : ∀ x ∈ v, x ≤ 65535) (hne : v ≠ []) : (scan v).2.1 < v.length := by
  have := (scan_spec v hv).2.1 hne
  rcases Nat.lt_or_ge (scan v).2.1 v.length with h | h
  · exact h
  · rw [List.getElem?_eq_none h] at this
    cases this

theorem mean3_lt (l : List Nat) : mean3 l ≤ 65535 := by
  unfold mean3
  have h := Nat.mod_lt
  dsimp only
  omega

theorem smooth_length (vert : Bool) (w h : Nat) (v : List Nat) : (smooth vert w h v).length = h * w := by
  unfold smooth
  rw [List.length_flatMap]
  simp

theorem smooth_le (vert : Bool) (w h : Nat) (v : List Nat) : ∀ x ∈ smooth vert w h v, x ≤ 65535 := by
  intro x hx
  unfold smooth at hx
  simp only [List.mem_flatMap, List.mem_map, List.mem_range] at hx
  obtain ⟨r, _, c, _, rfl⟩ := hx
  split <;> exact mean3_lt _

theorem selectLoop_index (w h : Nat) (hpos : 0 < h * w) (n : Nat) (v : List Nat) (st : Nat × Nat × Nat) (hst : st.2.1 < h * w) :
    (selectLoop w h n v st).2.1 < h * w := by
  induction n generalizing v st with
  | zero => simpa [selectLoop] using hst
  | succ n ih =>
    simp only [selectLoop]
    split
    · apply ih
      have := scan_index (smooth (decide (6 - (n + 1) ≥ 5)) w h v) (smooth_le _ _ _ _) (by
        intro h0
        have := smooth_length (decide (6 - (n + 1) ≥ 5)) w h v
        rw [h0, List.length_nil] at this
        omega)
      rw [smooth_length] at this
      exact this
    · exact hst

theorem num_of_has (b : Range) (e : Pt) (he : b.has e) : b.num ≠ 0 := by
  unfold Range.has at he
  unfold Range.num
  have : 0 < (b.x1 - b.x0 + 1) * (b.y1 - b.y0 + 1) := Int.mul_pos (by omega) (by omega)
  omega

/-- **A pixel gets a disparity of its search range**, and none if and only if the range is empty. -/
theorem choose_in_range (b : Range) (hwf : 0 ≤ b.x1 - b.x0 + 1 ∧ 0 ≤ b.y1 - b.y0 + 1) (accum : List Nat) (ha : ∀ x ∈ accum, x ≤ 65535) :
    (choose b accum = none ↔ ∀ e, ¬ b.has e) ∧ ∀ e, choose b accum = some e → b.has e := by
  constructor
  · unfold choose
    by_cases h0 : b.num = 0
    · rw [if_pos h0]
      simp only [true_iff]
      intro e he
      exact num_of_has b e he h0
    · rw [if_neg h0]
      simp only [reduceCtorEq, false_iff]
      intro hc
      apply h0
      unfold Range.num
      have := hc (b.x0, b.y0)
      unfold Range.has at this
      dsimp only at this
      have : b.x1 - b.x0 + 1 = 0 ∨ b.y1 - b.y0 + 1 = 0 := by omega
      rcases this with h | h <;> rw [h] <;> simp
  · intro e he
    unfold choose at he
    split at he
    · cases he
    · rename_i h0
      injection he with he
      have hpos : 0 < b.height * b.width := by
        unfold Range.height Range.width
        have h1 : b.x1 - b.x0 + 1 ≠ 0 := by intro h; apply h0; unfold Range.num; rw [h]; simp
        have h2 : b.y1 - b.y0 + 1 ≠ 0 := by intro h; apply h0; unfold Range.num; rw [h]; simp
        exact Nat.mul_pos (by omega) (by omega)
      have hat : ∀ i, at' accum i ≤ 65535 := by
        intro i
        unfold at'
        rw [List.getD_eq_getElem?_getD]
        rcases hg : accum[i]? with _ | x
        · simp
        · simp only [Option.getD_some]
          exact ha x (List.mem_of_getElem? hg)
      have hidx : (selectBest b accum).2.1 < b.disps.length := by
        rw [length_disps]
        unfold selectBest
        dsimp only
        refine selectLoop_index _ _ hpos _ _ _ ?_
        have := scan_index ((List.range (b.width * b.height)).map (at' accum)) (by
          intro x hx
          rw [List.mem_map] at hx
          obtain ⟨i, _, rfl⟩ := hx
          exact hat i) (by
          intro h
          have := congrArg List.length h
          simp only [List.length_map, List.length_range, List.length_nil] at this
          rw [Nat.mul_comm] at this
          omega)
        simp only [List.length_map, List.length_range] at this
        rw [Nat.mul_comm b.height]
        exact this
      have := index_inverse b _ hidx
      rw [he] at this
      exact (mem_disps b e).1 (List.mem_of_getElem? this)

/-- **A single best disparity is chosen.** If one disparity has a lower accumulated cost than all others, it is the one. -/
theorem choose_best (b : Range) (accum : List Nat) (ha : ∀ x ∈ accum, x ≤ 65535) (e : Pt) (he : b.has e)
    (hbest : ∀ e', b.has e' → e' ≠ e → costOf b accum e < costOf b accum e') : choose b accum = some e := by
  unfold choose
  rw [if_neg (num_of_has b e he)]
  congr 1
  have hi : b.disps.idxOf e < b.disps.length := List.idxOf_lt_length_of_mem ((mem_disps _ e).2 he)
  have hat : ∀ i, at' accum i ≤ 65535 := by
    intro i
    unfold at'
    rw [List.getD_eq_getElem?_getD]
    rcases hg : accum[i]? with _ | x
    · simp
    · simp only [Option.getD_some]
      exact ha x (List.mem_of_getElem? hg)
  set v := (List.range (b.width * b.height)).map (at' accum) with hv
  have hvl : v.length = b.disps.length := by rw [hv, length_disps, List.length_map, List.length_range, Nat.mul_comm]
  have hvg : ∀ i, i < b.disps.length → v[i]? = some (at' accum i) := by
    intro i h
    rw [hv, List.getElem?_map, List.getElem?_range (by rw [length_disps, Nat.mul_comm] at h; exact h)]
    rfl
  have hle : ∀ x ∈ v, x ≤ 65535 := by
    intro x hx
    rw [hv, List.mem_map] at hx
    obtain ⟨i, _, rfl⟩ := hx
    exact hat i
  have hne : v ≠ [] := by
    intro h
    rw [h] at hvl
    simp at hvl
    omega
  obtain ⟨s1, s2, s3, _, _, _⟩ := scan_spec v hle
  have s2 := s2 hne
  have hsi := scan_index v hle hne
  -- other places have larger values
  have hother : ∀ i, i < b.disps.length → i ≠ b.disps.idxOf e → at' accum (b.disps.idxOf e) < at' accum i := by
    intro i h hne'
    have hh : b.has b.disps[i] := (mem_disps b _).1 (List.getElem_mem h)
    have hd : b.disps[i] ≠ e := by
      intro hc
      apply hne'
      rw [← hc, (disps_nodup b).idxOf_getElem i h]
    have := hbest _ hh hd
    rw [costOf_getElem] at this
    exact this
  have hidx : (scan v).2.1 = b.disps.idxOf e := by
    by_contra hc
    have h1 := hother _ (by omega) hc
    rw [hvg _ (by omega)] at s2
    have h2 := Option.some.inj s2
    have h3 := s1 _ (List.mem_of_getElem? (hvg _ hi))
    omega
  have hcount : (scan v).2.2 ≤ 1 := by
    rw [s3]
    by_contra hc
    have hdup : 2 ≤ v.count (scan v).1 := by omega
    rw [← List.replicate_sublist_iff] at hdup
    have hd : List.Duplicate (scan v).1 v := List.duplicate_iff_sublist.2 hdup
    rw [List.duplicate_iff_exists_distinct_get] at hd
    obtain ⟨p, q, hpq, h1, h2⟩ := hd
    have g1 : v[p.1]? = some (scan v).1 := by rw [List.getElem?_eq_getElem p.2]; exact congrArg some h1.symm
    have g2 : v[q.1]? = some (scan v).1 := by rw [List.getElem?_eq_getElem q.2]; exact congrArg some h2.symm
    rw [hvg _ (by have := p.2; omega)] at g1
    rw [hvg _ (by have := q.2; omega)] at g2
    rw [hvg _ (by omega), hidx] at s2
    have g1 := Option.some.inj g1
    have g2 := Option.some.inj g2
    have s2 := Option.some.inj s2
    have hp2 := p.2
    have hq2 := q.2
    by_cases hp : p.1 = b.disps.idxOf e
    · have : q.1 ≠ b.disps.idxOf e := by
        intro h
        have : p.1 < q.1 := hpq
        omega
      have := hother q.1 (by omega) this
      omega
    · have := hother p.1 (by omega) hp
      omega
  have : (selectBest b accum).2.1 = b.disps.idxOf e := by
    unfold selectBest
    rw [← hv]
    simp only [selectLoop]
    rw [if_neg (by omega)]
    exact hidx
  rw [this]
  exact index_of_disp b e he

/-! ### Search ranges -/

/-- **Search ranges from the level below** stay inside the search range of the image; they have every disparity within the buffer of twice
the earlier one, unless that lies on the edge of a wide search range, when everything is searched. -/
theorem prior_spec (P : Params) (bx bY : Int) (prev : Option Pt) :
    ((priorRange P bx bY prev).1).inside P ∧
    (∀ d e : Pt, prev = some d → P.minX ≤ e.1 ∧ e.1 ≤ P.maxX ∧ P.minY ≤ e.2 ∧ e.2 ≤ P.maxY → ((e.1 - 2 * d.1).natAbs : Int) ≤ bx →
      ((e.2 - 2 * d.2).natAbs : Int) ≤ bY → ((priorRange P bx bY prev).1).has e) ∧
    ((priorRange P bx bY prev).2 = true → ∀ e : Pt, P.minX ≤ e.1 ∧ e.1 ≤ P.maxX ∧ P.minY ≤ e.2 ∧ e.2 ≤ P.maxY → ((priorRange P bx bY prev).1).has e) ∧
    (prev = none → (priorRange P bx bY prev).2 = true) := by
  have hfull : Range.inside ⟨P.minX, P.minY, P.maxX, P.maxY⟩ P := by
    intro d hd
    unfold Range.has at hd
    exact hd
  cases prev with
  | none =>
    simp only [priorRange]
    exact ⟨hfull, fun _ _ h => absurd h (by simp), fun _ e he => he, fun _ => trivial⟩
  | some d =>
    simp only [priorRange]
    split
    · refine ⟨hfull, fun _ e _ he _ _ => he, fun _ e he => he, fun h => absurd h (by simp)⟩
    · refine ⟨?_, ?_, fun h => absurd h (by simp), fun h => absurd h (by simp)⟩
      · intro e he
        unfold Range.has at he
        dsimp only at he
        obtain ⟨h1, h2, h3, h4⟩ := he
        split at h1 <;> split at h2 <;> split at h3 <;> split at h4 <;> omega
      · intro d' e hd he h1 h2
        injection hd with hd
        subst hd
        unfold Range.has
        dsimp only
        refine ⟨?_, ?_, ?_, ?_⟩ <;> split <;> omega

/-- The range is in order (it has no negative number of columns or rows) if twice the earlier disparity is at most the buffer away from the search range. -/
theorem prior_wf (P : Params) (hP : P.minX ≤ P.maxX ∧ P.minY ≤ P.maxY) (bx bY : Int) (hb : 0 ≤ bx ∧ 0 ≤ bY) (prev : Option Pt)
    (hr : ∀ d : Pt, prev = some d → P.minX - bx ≤ 2 * d.1 ∧ 2 * d.1 ≤ P.maxX + bx ∧ P.minY - bY ≤ 2 * d.2 ∧ 2 * d.2 ≤ P.maxY + bY) :
    let b := (priorRange P bx bY prev).1
    b.x0 ≤ b.x1 ∧ b.y0 ≤ b.y1 := by
  cases prev with
  | none => simpa [priorRange] using hP
  | some d =>
    have := hr d rfl
    simp only [priorRange]
    split
    · exact hP
    · dsimp only
      constructor <;> split <;> split <;> omega

/-- **Masks**: the restricted range has the disparities of the range that lead to the valid region, and is in order. -/
theorem mask_spec (b v : Range) (hb : b.x0 ≤ b.x1 ∧ b.y0 ≤ b.y1) :
    (∀ e, (maskRange b v).has e ↔ b.has e ∧ v.has e) ∧
    0 ≤ (maskRange b v).x1 - (maskRange b v).x0 + 1 ∧ 0 ≤ (maskRange b v).y1 - (maskRange b v).y0 + 1 ∧
    ((maskRange b v).num = 0 ↔ ∀ e, ¬ (b.has e ∧ v.has e)) := by
  unfold maskRange zeroRange
  dsimp only
  split
  · rename_i h
    have hno : ∀ e, ¬ (b.has e ∧ v.has e) := by
      intro e
      unfold Range.has
      omega
    refine ⟨?_, by decide, by decide, ?_⟩
    · intro e
      constructor
      · intro he
        unfold Range.has at he
        dsimp only at he
        omega
      · intro he
        exact absurd he (hno e)
    · constructor
      · intro _; exact hno
      · intro _; rfl
  · rename_i h
    refine ⟨?_, ?_, ?_, ?_⟩
    · intro e
      unfold Range.has
      dsimp only
      omega
    · dsimp only; omega
    · dsimp only; omega
    · constructor
      · intro h0
        exfalso
        unfold Range.num at h0
        dsimp only at h0
        have : 0 < (min v.x1 b.x1 - max v.x0 b.x0 + 1) * (min v.y1 b.y1 - max v.y0 b.y0 + 1) := Int.mul_pos (by omega) (by omega)
        omega
      · intro h0
        exfalso
        refine h0 (max v.x0 b.x0, max v.y0 b.y0) ⟨?_, ?_⟩ <;> unfold Range.has <;> dsimp only <;> omega

end VW.SGM
