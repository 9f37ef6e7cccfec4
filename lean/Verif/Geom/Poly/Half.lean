import Verif.Geom.Poly.Struct

/-
The edges of the polygons `cutToHalfSpace` gives, continued: the successor map permutes the points.
-/

namespace Verif.Geom.Poly

variable {K : Type} [Field K] [LinearOrder K] [IsStrictOrderedRing K]

/-! ### Points on the cutline -/

theorem dot_seg (n a b : Pt K) (t : K) : dot n ((1 - t) * a.1 + t * b.1, (1 - t) * a.2 + t * b.2) = (1 - t) * dot n a + t * dot n b := by
  unfold dot; ring

/-- `cutEdge` of an edge with ends on both sides of the cutline is the point of the edge on the cutline. -/
theorem cutEdge_spec (p0 p1 n : Pt K) (H : K) (h : (dot n p0 < H ∧ H < dot n p1) ∨ (dot n p1 < H ∧ H < dot n p0)) :
    dot n (cutEdge p0 p1 n H) = H ∧ OnSeg (p0, p1) (cutEdge p0 p1 n H) := by
  set d0 := dot n p0 with hd0
  set d1 := dot n p1 with hd1
  have hne : d1 - d0 ≠ 0 := by rcases h with h | h <;> intro e <;> linarith [h.1, h.2]
  have hne' : d0 - d1 ≠ 0 := fun e => hne (by linarith)
  set t := (H - d0) / (d1 - d0) with ht
  have ht01 : 0 ≤ t ∧ t ≤ 1 := by
    rcases h with h | h
    · have : 0 < d1 - d0 := by linarith [h.1, h.2]
      exact ⟨div_nonneg (by linarith [h.1]) this.le, (div_le_one this).2 (by linarith [h.2])⟩
    · have : 0 < d0 - d1 := by linarith [h.1, h.2]
      have e : t = (d0 - H) / (d0 - d1) := by rw [ht]; field_simp; ring
      rw [e]
      exact ⟨div_nonneg (by linarith [h.2]) this.le, (div_le_one this).2 (by linarith [h.1])⟩
  have ht2 : (H - d1) / (d0 - d1) = 1 - t := by rw [ht]; field_simp; ring
  set c : Pt K := ((1 - t) * p0.1 + t * p1.1, (1 - t) * p0.2 + t * p1.2) with hc
  have hdc : dot n c = H := by
    rw [hc, dot_seg, ← hd0, ← hd1, ht]
    field_simp
    ring
  have hm : cutEdge p0 p1 n H = c := by
    unfold cutEdge
    dsimp only
    rw [← hd0, ← hd1, ht2, ← ht, max_eq_left ht01.1, min_eq_left ht01.2, max_eq_left (by linarith [ht01.2] : (0 : K) ≤ 1 - t),
      min_eq_left (by linarith [ht01.1] : 1 - t ≤ 1)]
    have e1 : 1 / 2 * ((1 - t) * p0.1 + t * p1.1) + 1 / 2 * ((1 - (1 - t)) * p1.1 + (1 - t) * p0.1) = c.1 := by
      rw [hc]; ring
    have e2 : 1 / 2 * ((1 - t) * p0.2 + t * p1.2) + 1 / 2 * ((1 - (1 - t)) * p1.2 + (1 - t) * p0.2) = c.2 := by
      rw [hc]; ring
    rw [e1, e2]
    by_cases hn1 : n.1 = 0
    · rw [if_pos hn1]
      have hn2 : n.2 ≠ 0 := by
        intro hn2
        apply hne
        rw [hd0, hd1, dot, dot, hn1, hn2]; ring
      refine Prod.ext rfl ?_
      dsimp only
      rw [div_eq_iff hn2, ← hdc, dot, hn1]
      ring
    · rw [if_neg hn1]
      by_cases hn2 : n.2 = 0
      · rw [if_pos hn2]
        refine Prod.ext ?_ rfl
        dsimp only
        rw [div_eq_iff hn1, ← hdc, dot, hn2]
        ring
      · rw [if_neg hn2]
  rw [hm]
  exact ⟨hdc, t, ht01.1, ht01.2, rfl⟩

/-- Where the emitted points are. -/
theorem emit_pts (n : Pt K) (H : K) (a b c : Pt K) : ∀ x ∈ emit n H a b c,
    dot n x.pt ≤ H ∧ (x.tag ≠ none → dot n x.pt = H) ∧ OnSeg (b, c) x.pt := by
  have hb : OnSeg (b, c) b := ⟨0, le_rfl, zero_le_one, by simp⟩
  intro x hx
  unfold emit at hx
  dsimp only at hx
  split at hx
  · rename_i h1
    split at hx
    · rw [List.mem_singleton] at hx
      subst hx
      exact ⟨h1.le, by simp, hb⟩
    · rename_i h2
      have hs := cutEdge_spec b c n H (Or.inl ⟨h1, not_le.1 h2⟩)
      rcases List.mem_cons.1 hx with hx | hx
      · subst hx
        exact ⟨h1.le, by simp, hb⟩
      · rw [List.mem_singleton] at hx
        subst hx
        exact ⟨hs.1.le, fun _ => hs.1, hs.2⟩
  · split at hx
    · rename_i h1 h1'
      split at hx
      · simp at hx
      · rename_i h2
        have hs := cutEdge_spec b c n H (Or.inr ⟨not_le.1 h2, h1'⟩)
        rw [List.mem_singleton] at hx
        subst hx
        exact ⟨hs.1.le, fun _ => hs.1, hs.2⟩
    · rename_i h1 h1'
      have e : dot n b = H := le_antisymm (not_lt.1 h1') (not_lt.1 h1)
      split at hx
      · simp at hx
      · split at hx <;> rw [List.mem_singleton] at hx <;> subst hx <;> exact ⟨e.le, fun _ => e, hb⟩

theorem emitAll_pts (n : Pt K) (H : K) (l : List (Pt K)) : ∀ x ∈ emitAll n H l,
    dot n x.pt ≤ H ∧ (x.tag ≠ none → dot n x.pt = H) ∧ ∃ e ∈ edges l, OnSeg e x.pt := by
  intro x hx
  obtain ⟨v, hv, hx⟩ := List.mem_flatMap.1 hx
  obtain ⟨h1, h2, h3⟩ := emit_pts _ _ _ _ _ x hx
  exact ⟨h1, h2, _, List.mem_map.2 ⟨v, hv, rfl⟩, h3⟩

/-! ### The successor map -/

omit [IsStrictOrderedRing K] in
theorem cp_mem (E : List (CutPt K)) (i : Nat) (h : i < E.length) : cp E i ∈ E := by
  unfold cp
  rw [List.getD_eq_getElem _ _ h]
  exact List.getElem_mem _

omit [IsStrictOrderedRing K] in
theorem zipIdx_eq (E : List (CutPt K)) : E.zipIdx = (List.range E.length).map fun i => (cp E i, i) := by
  apply List.ext_getElem
  · simp
  · intro i h1 h2
    have hi : i < E.length := by simpa using h1
    simp [cp, hi]

/-- The entry of `ptsOnCutline` for point `i`. -/
def entry (n : Pt K) (E : List (CutPt K)) (i : Nat) : Option (ValIndex K) :=
  (cp E i).tag.map fun o => ⟨n.1 * (cp E i).pt.2 - n.2 * (cp E i).pt.1, i, o⟩

omit [IsStrictOrderedRing K] in
theorem onCutline_eq (n : Pt K) (E : List (CutPt K)) : onCutline n E = (List.range E.length).filterMap (entry n E) := by
  unfold onCutline
  rw [zipIdx_eq, List.filterMap_map]
  rfl

omit [IsStrictOrderedRing K] in
theorem entry_some (n : Pt K) (E : List (CutPt K)) (i : Nat) (c : ValIndex K) (h : entry n E i = some c) :
    c.index = i ∧ (cp E i).tag = some c.isOutward := by
  unfold entry at h
  cases ht : (cp E i).tag with
  | none => rw [ht] at h; simp at h
  | some o =>
    rw [ht] at h
    simp only [Option.map_some, Option.some.injEq] at h
    subst h
    exact ⟨rfl, rfl⟩

omit [IsStrictOrderedRing K] in
theorem mem_onCutline (n : Pt K) (E : List (CutPt K)) (c : ValIndex K) (h : c ∈ onCutline n E) :
    c.index < E.length ∧ (cp E c.index).tag = some c.isOutward := by
  rw [onCutline_eq] at h
  obtain ⟨i, hi, he⟩ := List.mem_filterMap.1 h
  obtain ⟨h1, h2⟩ := entry_some n E i c he
  rw [h1]
  exact ⟨List.mem_range.1 hi, h2⟩

omit [IsStrictOrderedRing K] in
/-- The indices of the outward points and of the inward points. -/
theorem idx_filter (n : Pt K) (E : List (CutPt K)) (b : Bool) (L : List Nat) :
    ((L.filterMap (entry n E)).filter (fun c => c.isOutward == b)).map (·.index) = L.filter fun i => (cp E i).tag == some b := by
  induction L with
  | nil => rfl
  | cons i t ih =>
    rw [List.filterMap_cons]
    cases he : entry n E i with
    | none =>
      have ht : (cp E i).tag = none := by
        unfold entry at he
        simpa using he
      simp only
      rw [ih, List.filter_cons, ht]
      rfl
    | some c =>
      obtain ⟨h1, h2⟩ := entry_some n E i c he
      simp only
      rw [List.filter_cons, List.filter_cons, h2]
      by_cases hb : c.isOutward = b
      · subst hb
        simp [ih, h1]
      · have e1 : (c.isOutward == b) = false := by simpa using hb
        have e2 : ((some c.isOutward : Option Bool) == some b) = false := by simpa using hb
        rw [e1, e2]
        simpa using ih

/-- The points with the tag. -/
def tagged (E : List (CutPt K)) (b : Bool) : List Nat := (List.range E.length).filter fun i => (cp E i).tag == some b

omit [IsStrictOrderedRing K] in
theorem tagged_mem (E : List (CutPt K)) (b : Bool) (i : Nat) : i ∈ tagged E b ↔ i < E.length ∧ (cp E i).tag = some b := by
  unfold tagged
  simp

omit [IsStrictOrderedRing K] in
theorem tagged_length (E : List (CutPt K)) (h : ∀ i, i < E.length → ((cp E i).tag = some true ↔ (cp E ((i + 1) % E.length)).tag = some false)) :
    (tagged E true).length = (tagged E false).length := by
  unfold tagged
  have h1 := (((range_rot E.length).filter fun i => (cp E i).tag == some false)).length_eq
  rw [← h1, List.filter_map, List.length_map]
  congr 1
  refine List.filter_congr fun i hi => ?_
  have := h i (List.mem_range.1 hi)
  simp only [Function.comp]
  rw [Bool.eq_iff_iff]
  simpa using this

theorem find_zip (outs ins : List Nat) (hnd : outs.Nodup) (hlen : outs.length = ins.length) (j : Nat) (hj : j < outs.length) :
    (outs.zip ins).find? (fun p => decide (p.1 = outs.getD j 0)) = some (outs.getD j 0, ins.getD j 0) := by
  induction outs generalizing ins j with
  | nil => simp at hj
  | cons a t ih =>
    cases ins with
    | nil => simp at hlen
    | cons b u =>
      rw [List.zip_cons_cons, List.find?_cons]
      cases j with
      | zero => simp
      | succ j =>
        have hj' : j < t.length := by simpa using hj
        have hm : t.getD j 0 ∈ t := by rw [List.getD_eq_getElem _ _ hj']; exact List.getElem_mem _
        have hne : ¬ a = t.getD j 0 := fun e => (List.nodup_cons.1 hnd).1 (e ▸ hm)
        have e1 : (a :: t).getD (j + 1) 0 = t.getD j 0 := rfl
        have e2 : (b :: u).getD (j + 1) 0 = u.getD j 0 := rfl
        rw [e1, e2]
        simp only [hne, decide_false]
        exact ih u (List.nodup_cons.1 hnd).2 (by simpa using hlen) j hj'

/-- The successor map of the points of a polygon. -/
theorem succ_spec (n : Pt K) (H : K) (E : List (CutPt K)) (srt : List (ValIndex K)) (hs : srt.Perm (onCutline n E))
    (hH : ∀ x ∈ E, x.tag ≠ none → dot n x.pt = H)
    (halt : ∀ i, i < E.length → ((cp E i).tag = some true ↔ (cp E ((i + 1) % E.length)).tag = some false)) :
    (∀ i, i < E.length → (cp E i).tag ≠ some true → succ n H E srt i = (i + 1) % E.length)
    ∧ (∀ i, i < E.length → (cp E i).tag = some true → succ n H E srt i ∈ tagged E false)
    ∧ (∀ i j, i < E.length → j < E.length → succ n H E srt i = succ n H E srt j → i = j) := by
  have hpt : ∀ i, i < E.length → (E.map (·.pt)).getD i (0, 0) = (cp E i).pt := by
    intro i hi
    rw [List.getD_eq_getElem _ _ (by simpa using hi), List.getElem_map]
    unfold cp
    rw [List.getD_eq_getElem _ _ hi]
  have hmem : ∀ c ∈ srt, c.index < E.length ∧ (cp E c.index).tag = some c.isOutward := fun c hc => mem_onCutline n E c (hs.mem_iff.1 hc)
  have houts : ((srt.filter (·.isOutward)).map (·.index)).Perm (tagged E true) := by
    have h1 := (hs.filter (fun c => c.isOutward == true)).map (·.index)
    rw [onCutline_eq, idx_filter] at h1
    simpa [tagged] using h1
  have hins : ((srt.filter (!·.isOutward)).map (·.index)).Perm (tagged E false) := by
    have h1 := (hs.filter (fun c => c.isOutward == false)).map (·.index)
    rw [onCutline_eq, idx_filter] at h1
    simpa [tagged] using h1
  set outs := (srt.filter (·.isOutward)).map (·.index) with hou
  set ins := (srt.filter (!·.isOutward)).map (·.index) with hin
  have hlen : outs.length = ins.length := by rw [houts.length_eq, hins.length_eq, tagged_length E halt]
  have hnd : ∀ b, (tagged E b).Nodup := fun b => List.nodup_range.filter _
  have hondup : outs.Nodup := houts.nodup_iff.2 (hnd _)
  have hindup : ins.Nodup := hins.nodup_iff.2 (hnd _)
  -- not outward
  have hA : ∀ i, i < E.length → (cp E i).tag ≠ some true → succ n H E srt i = (i + 1) % E.length := by
    intro i hi ht
    unfold succ
    by_cases hd : dot n ((E.map (·.pt)).getD i (0, 0)) ≠ H
    · rw [if_pos hd]
    · rw [if_neg hd]
      cases hf : srt.find? (fun c => decide (c.index = i)) with
      | none => rfl
      | some c =>
        have h1 := List.find?_some hf
        have h2 : c.index = i := by simpa using h1
        have h3 := (hmem c (List.mem_of_find?_eq_some hf)).2
        rw [h2] at h3
        cases hb : c.isOutward with
        | true => exact absurd (hb ▸ h3) ht
        | false => simp [hb]
  -- outward
  have hB : ∀ i, i < E.length → (cp E i).tag = some true → ∃ j, j < outs.length ∧ i = outs.getD j 0 ∧ succ n H E srt i = ins.getD j 0 := by
    intro i hi ht
    have hio : i ∈ outs := houts.mem_iff.2 ((tagged_mem E true i).2 ⟨hi, ht⟩)
    obtain ⟨j, hj, hji⟩ := List.mem_iff_getElem.1 hio
    have hji : i = outs.getD j 0 := by rw [List.getD_eq_getElem _ _ hj, hji]
    refine ⟨j, hj, hji, ?_⟩
    unfold succ
    have hd : ¬ dot n ((E.map (·.pt)).getD i (0, 0)) ≠ H := by
      rw [hpt i hi, not_not]
      exact hH _ (cp_mem E i hi) (by rw [ht]; simp)
    rw [if_neg hd]
    cases hf : srt.find? (fun c => decide (c.index = i)) with
    | none =>
      exfalso
      obtain ⟨c, hc, hci⟩ := List.mem_map.1 hio
      have := List.find?_eq_none.1 hf c (List.mem_filter.1 hc).1
      simp [hci] at this
    | some c =>
      have h1 := List.find?_some hf
      have h2 : c.index = i := by simpa using h1
      have h3 := (hmem c (List.mem_of_find?_eq_some hf)).2
      rw [h2, ht] at h3
      have hb : c.isOutward = true := by simpa using h3.symm
      simp only [hb, if_true]
      unfold nextInward
      dsimp only
      rw [← hou, ← hin, hji, find_zip outs ins hondup hlen j hj]
  have hC : ∀ i, i < E.length → (cp E i).tag = some true → succ n H E srt i ∈ tagged E false := by
    intro i hi ht
    obtain ⟨j, hj, _, h⟩ := hB i hi ht
    rw [h, List.getD_eq_getElem _ _ (by omega)]
    exact hins.mem_iff.1 (List.getElem_mem _)
  refine ⟨hA, hC, ?_⟩
  intro i j hi hj he
  by_cases ti : (cp E i).tag = some true <;> by_cases tj : (cp E j).tag = some true
  · obtain ⟨a, ha, hai, ha2⟩ := hB i hi ti
    obtain ⟨b, hb, hbj, hb2⟩ := hB j hj tj
    rw [ha2, hb2, List.getD_eq_getElem _ _ (by omega), List.getD_eq_getElem _ _ (by omega)] at he
    have := (hindup.getElem_inj_iff).1 he
    rw [hai, hbj, this]
  · exfalso
    have h1 := ((tagged_mem E false _).1 (hC i hi ti)).2
    rw [he, hA j hj tj] at h1
    exact tj ((halt j hj).2 h1)
  · exfalso
    have h1 := ((tagged_mem E false _).1 (hC j hj tj)).2
    rw [← he, hA i hi ti] at h1
    exact ti ((halt i hi).2 h1)
  · rw [hA i hi ti, hA j hj tj] at he
    have h1 := pred_rot E.length i hi
    have h2 := pred_rot E.length j hj
    rw [← h1, ← h2, he]

end Verif.Geom.Poly
