import Verif.Interp.SmoothProps

/-
C107: times of image lines from a table.
-/

namespace Verif.Camera.Interp

set_option linter.unusedSectionVars false

variable {K : Type} [Field K] [LinearOrder K] [IsStrictOrderedRing K] [FloorRing K]

/-- The time on the straight line through two entries of the table. -/
def between (off : K) (a b : K × K) (line : K) : K := off + a.2 + (b.2 - a.2) / (b.1 - a.1) * (line - a.1)

/-- Slopes and intercepts of the segments of the table, in its order. -/
def segs (off : K) : List (K × K) → List (K × K × K)
  | a :: b :: l => (a.1, (b.2 - a.2) / (b.1 - a.1), off + a.2 - (b.2 - a.2) / (b.1 - a.1) * a.1) :: segs off (b :: l)
  | _ => []

theorem mapPut_last (k : K) (v : K × K) (m : List (K × K × K)) (h : ∀ e ∈ m, e.1 < k) : mapPut k v m = m ++ [(k, v)] := by
  induction m with
  | nil => rfl
  | cons e m ih =>
    obtain ⟨k', v'⟩ := e
    have hk := h (k', v') List.mem_cons_self
    simp only at hk
    unfold mapPut
    rw [if_neg (not_lt.2 hk.le), if_neg hk.ne', ih fun e he => h e (List.mem_cons_of_mem _ he)]
    rfl

theorem tlcBuild_segs (off : K) (l : List (K × K)) (inc : l.Pairwise (fun a b => a.1 < b.1)) (m : List (K × K × K))
    (h : ∀ e ∈ m, ∀ a ∈ l, e.1 < a.1) : tlcBuild off l m = m ++ segs off l := by
  induction l generalizing m with
  | nil => simp [tlcBuild, segs]
  | cons a l ih =>
    cases l with
    | nil => simp [tlcBuild, segs]
    | cons b l =>
      unfold tlcBuild segs
      simp only
      rw [mapPut_last _ _ _ fun e he => h e he a List.mem_cons_self, ih (List.Pairwise.of_cons inc)]
      · simp
      · intro e he c hc
        rw [List.mem_append] at he
        rcases he with he | he
        · exact h e he c (List.mem_cons_of_mem _ hc)
        · rw [List.mem_singleton] at he
          subst he
          exact List.rel_of_pairwise_cons inc hc

theorem segs_get (off : K) (l : List (K × K)) (i : Nat) : (segs off l)[i]? = if i + 1 < l.length then
    some ((l.getD i 0).1, ((l.getD (i + 1) 0).2 - (l.getD i 0).2) / ((l.getD (i + 1) 0).1 - (l.getD i 0).1),
      off + (l.getD i 0).2 - ((l.getD (i + 1) 0).2 - (l.getD i 0).2) / ((l.getD (i + 1) 0).1 - (l.getD i 0).1) * (l.getD i 0).1) else none := by
  induction l generalizing i with
  | nil => simp [segs]
  | cons a l ih =>
    cases l with
    | nil => simp [segs]
    | cons b l =>
      unfold segs
      cases i with
      | zero => simp
      | succ i =>
        rw [List.getElem?_cons_succ, ih]
        simp only [List.length_cons, List.getD_cons_succ]
        by_cases c : i + 1 < l.length + 1
        · rw [if_pos c, if_pos (by omega)]
        · rw [if_neg c, if_neg (by omega)]

theorem takeWhile_length {α : Type} (p : α → Bool) (l : List α) (c : Nat) (hc : c ≤ l.length) (h1 : ∀ j, j < c → ∀ a, l[j]? = some a → p a = true)
    (h2 : ∀ a, l[c]? = some a → p a = false) : (l.takeWhile p).length = c := by
  induction l generalizing c with
  | nil => simp at hc; simp [hc]
  | cons a l ih =>
    cases c with
    | zero => have := h2 a (by simp); simp [this]
    | succ c =>
      have := h1 0 (by omega) a (by simp)
      rw [List.takeWhile_cons, if_pos this, List.length_cons, ih c (by simpa using hc) (fun j hj b hb => h1 (j + 1) (by omega) b (by simpa using hb))
        (fun b hb => h2 b (by simpa using hb))]

/-- The time, once the segment is known. -/
theorem tlcTime_of (tlc : List (K × K)) (off line : K) (inc : tlc.Pairwise (fun a b => a.1 < b.1)) (c : Nat) (hc : c + 1 ≤ tlc.length)
    (h1 : ∀ j, j < c → (tlc.getD j 0).1 < line) (h2 : c + 1 < tlc.length → line ≤ (tlc.getD c 0).1) (hn : 1 < tlc.length) :
    tlcTime tlc off line = some (between off (tlc.getD (c - 1) 0) (tlc.getD (c - 1 + 1) 0) line) := by
  unfold tlcTime
  simp only
  rw [tlcBuild_segs off tlc inc [] (by simp), List.nil_append]
  have hlen : (segs off tlc).length = tlc.length - 1 := by
    apply le_antisymm
    · by_contra hcon
      have hx := segs_get off tlc (tlc.length - 1)
      rw [if_neg (by omega), List.getElem?_eq_none_iff] at hx
      omega
    · by_contra hcon
      have hx := segs_get off tlc (tlc.length - 2)
      rw [if_pos (by omega), List.getElem?_eq_none (by omega)] at hx
      cases hx
  have hk : ((segs off tlc).takeWhile (fun e => decide (e.1 < line))).length = c := by
    refine takeWhile_length _ _ c (by omega) ?_ ?_
    · intro j hj a ha
      rw [segs_get, if_pos (by omega)] at ha
      cases ha
      simpa using h1 j hj
    · intro a ha
      rw [segs_get] at ha
      by_cases c' : c + 1 < tlc.length
      · rw [if_pos c'] at ha
        cases ha
        simpa using h2 c'
      · rw [if_neg c'] at ha; cases ha
  rw [hk]
  have e : (if c ≠ 0 then c - 1 else c) = c - 1 := by by_cases c0 : c = 0 <;> simp [c0]
  rw [e, segs_get, if_pos (by omega)]
  simp only
  congr 1
  unfold between
  ring

/-- **C107.** The time of a line from a table with increasing lines: on the straight line between the entries around it,
before the first and after the last entry on that of the first and last pair. -/
theorem tlcTime_spec (tlc : List (K × K)) (off line : K) (inc : tlc.Pairwise (fun a b => a.1 < b.1)) (hn : 1 < tlc.length) :
    (∀ i, i + 1 < tlc.length → (tlc.getD i 0).1 ≤ line → line ≤ (tlc.getD (i + 1) 0).1 →
      tlcTime tlc off line = some (between off (tlc.getD i 0) (tlc.getD (i + 1) 0) line)) ∧
    (line < (tlc.getD 0 0).1 → tlcTime tlc off line = some (between off (tlc.getD 0 0) (tlc.getD 1 0) line)) ∧
    (∀ m, tlc.length = m + 2 → (tlc.getD (m + 1) 0).1 < line → tlcTime tlc off line = some (between off (tlc.getD m 0) (tlc.getD (m + 1) 0) line)) ∧
    (∀ i, i < tlc.length → line = (tlc.getD i 0).1 → tlcTime tlc off line = some (off + (tlc.getD i 0).2)) := by
  have mono : ∀ i j, i < j → j < tlc.length → (tlc.getD i 0).1 < (tlc.getD j 0).1 := by
    intro i j hij hj
    rw [List.getD_eq_getElem _ _ hj, List.getD_eq_getElem _ _ (by omega)]
    exact List.pairwise_iff_getElem.1 inc i j _ _ hij
  have gen : ∀ i, i + 1 < tlc.length → (tlc.getD i 0).1 ≤ line → line ≤ (tlc.getD (i + 1) 0).1 →
      tlcTime tlc off line = some (between off (tlc.getD i 0) (tlc.getD (i + 1) 0) line) := by
    intro i hi h1 h2
    rcases eq_or_lt_of_le h1 with h1 | h1
    · cases i with
      | zero =>
        rw [tlcTime_of tlc off line inc 0 (by omega) (fun j hj => by omega) (fun _ => h1.symm.le) hn]
      | succ i =>
        rw [tlcTime_of tlc off line inc (i + 1) (by omega) (fun j hj => by rw [← h1]; exact mono _ _ hj (by omega)) (fun _ => h1.symm.le) hn]
        simp only [Nat.add_sub_cancel]
        congr 1
        unfold between
        have m1 := mono i (i + 1) (by omega) (by omega)
        have : (tlc.getD (i + 1) 0).1 - (tlc.getD i 0).1 ≠ 0 := by linarith
        rw [← h1, sub_self, mul_zero, add_zero, div_mul_cancel₀ _ this]
        ring
    · rw [tlcTime_of tlc off line inc (i + 1) (by omega) (fun j hj => lt_of_le_of_lt ?_ h1) (fun _ => h2) hn]
      · simp only [Nat.add_sub_cancel]
      · rcases Nat.lt_or_ge j i with h | h
        · exact (mono _ _ h (by omega)).le
        · rw [show j = i by omega]
  refine ⟨gen, ?_, ?_, ?_⟩
  · intro h
    rw [tlcTime_of tlc off line inc 0 (by omega) (fun j hj => by omega) (fun _ => h.le) hn]
  · intro m hm h
    rw [tlcTime_of tlc off line inc (m + 1) (by omega) (fun j hj => lt_trans (mono _ _ hj (by omega)) h) (fun h' => by omega) hn]
    simp only [Nat.add_sub_cancel]
  · intro i hi h
    rcases Nat.lt_or_ge (i + 1) tlc.length with c | c
    · rw [gen i c h.symm.le (by rw [h]; exact (mono _ _ (by omega) c).le)]
      unfold between
      rw [h, sub_self, mul_zero, add_zero]
    · obtain ⟨j, rfl⟩ : ∃ j, i = j + 1 := ⟨i - 1, by omega⟩
      rw [gen j hi (by rw [h]; exact (mono _ _ (by omega) hi).le) h.le]
      unfold between
      have m1 := mono j (j + 1) (by omega) hi
      have : (tlc.getD (j + 1) 0).1 - (tlc.getD j 0).1 ≠ 0 := by linarith
      rw [h, div_mul_cancel₀ _ this]
      congr 1
      ring

/-- Non-vacuity. -/
example : tlcTime [((0 : ℚ), 0), (10, 5), (20, 25)] 100 15 = some 115 ∧ tlcTime [((0 : ℚ), 0), (10, 5), (20, 25)] 100 30 = some 145 := by
  decide +kernel

/-- **C107, refuted part.** A table with decreasing lines is accepted, and its times are wrong even between its entries. -/
theorem tlc_decreasing : tlcTime [((2 : ℚ), 0), (1, 1), (0, 5)] 0 (3 / 2) = some (-1) ∧ between (0 : ℚ) (2, 0) (1, 1) (3 / 2) = 1 / 2 := by
  decide +kernel

/-- **C107, refuted part.** With fewer than two entries there is no error: the time is read through the end of an empty map. -/
theorem tlc_short (tlc : List (K × K)) (off line : K) (h : tlc.length ≤ 1) : tlcTime tlc off line = none := by
  match tlc, h with
  | [], _ => simp [tlcTime, tlcBuild]
  | [a], _ => simp [tlcTime, tlcBuild]

end Verif.Camera.Interp
