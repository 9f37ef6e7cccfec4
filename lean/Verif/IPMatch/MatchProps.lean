import Verif.IPMatch.Metric

/-! Matching of interest points (C130). -/

namespace VW.IPMatch

/-! ### The matcher with a FLANN tree -/

/-- The search returns indices of points of the second list. -/
def ValidSearch (knn : Point → Option (ℕ × ℕ)) (ip1 ip2 : List Point) : Prop :=
  ∀ p ∈ ip1, ∀ i j, knn p = some (i, j) → i < ip2.length ∧ j < ip2.length

/-- The constraint rejects the nearest point found for `p`. -/
def Rejected (m : Matcher) (knn : Point → Option (ℕ × ℕ)) (ip2 : List Point) (p : Point) : Prop :=
  ∃ i j r, knn p = some (i, j) ∧ ip2[i]? = some r ∧
    ¬ ((m.bidirectional = true → m.constraint p r = true) ∧ m.constraint r p = true)

/-- `p` has the match `ip2[i]`: the two nearest found are `i` and `j`, the constraint allows `i` and it is closer than `j` by the factor. -/
def HasMatch (m : Matcher) (knn : Point → Option (ℕ × ℕ)) (ip2 : List Point) (p : Point) (i : ℕ) : Prop :=
  ∃ j r s, knn p = some (i, j) ∧ ip2[i]? = some r ∧ ip2[j]? = some s ∧
    (m.bidirectional = true → m.constraint p r = true) ∧ m.constraint r p = true ∧ m.metric r p < m.threshold * m.metric s p

theorem check_iff (m : Matcher) (r p : Point) :
    m.check r p = true ↔ (m.bidirectional = true → m.constraint p r = true) ∧ m.constraint r p = true := by
  unfold Matcher.check
  cases m.bidirectional <;> simp

/-- What one point adds to the index list, if the indices are valid. -/
def entry (m : Matcher) (knn : Point → Option (ℕ × ℕ)) (ip2 : List Point) (p : Point) : List (Option ℕ) :=
  match knn p with
  | none => [none]
  | some (i, j) =>
    match ip2[i]?, ip2[j]? with
    | some r0, some r1 =>
      if m.check r0 p then (if m.metric r0 p < m.threshold * m.metric r1 p then [some i] else [none]) else []
    | _, _ => []

theorem indexLoop_eq (m : Matcher) (knn : Point → Option (ℕ × ℕ)) (ip2 : List Point) (ip1 : List Point) (hv : ValidSearch knn ip1 ip2)
    (out : List (Option ℕ)) : m.indexLoop knn ip2 ip1 out = some (out ++ ip1.flatMap (entry m knn ip2)) := by
  induction ip1 generalizing out with
  | nil => simp [Matcher.indexLoop]
  | cons p ps ih =>
    have ihv := ih (fun q hq => hv q (by simp [hq]))
    unfold Matcher.indexLoop
    rw [List.flatMap_cons]
    generalize ps.flatMap (entry m knn ip2) = E at ihv ⊢
    unfold entry
    rcases hk : knn p with _ | ⟨i, j⟩
    · simp only []
      rw [ihv]; simp
    · obtain ⟨hi, hj⟩ := hv p (by simp) i j hk
      simp only [List.getElem?_eq_getElem hi, List.getElem?_eq_getElem hj]
      by_cases hc : m.check ip2[i] p = true
      · rw [if_pos hc, if_pos hc]
        by_cases hd : m.metric ip2[i] p < m.threshold * m.metric ip2[j] p
        · rw [if_pos hd, if_pos hd, ihv]; simp
        · rw [if_neg hd, if_neg hd, ihv]; simp
      · rw [if_neg hc, if_neg hc, ihv]; simp

open Classical in
/-- What an accepted point adds. -/
theorem entry_accepted (m : Matcher) (knn : Point → Option (ℕ × ℕ)) (ip2 : List Point) (p : Point)
    (hv : ∀ i j, knn p = some (i, j) → i < ip2.length ∧ j < ip2.length) (hr : ¬ Rejected m knn ip2 p) :
    ∃ o : Option ℕ, entry m knn ip2 p = [o] ∧ ∀ i, o = some i ↔ HasMatch m knn ip2 p i := by
  unfold entry
  rcases hk : knn p with _ | ⟨i, j⟩
  · refine ⟨none, rfl, fun i => ⟨by simp, ?_⟩⟩
    rintro ⟨j, r, s, h, -⟩
    rw [hk] at h; cases h
  · obtain ⟨hi, hj⟩ := hv i j hk
    simp only [List.getElem?_eq_getElem hi, List.getElem?_eq_getElem hj]
    have hc : m.check ip2[i] p = true := by
      by_contra hc
      exact hr ⟨i, j, ip2[i], hk, List.getElem?_eq_getElem hi, fun h => hc ((check_iff _ _ _).2 h)⟩
    rw [if_pos hc]
    by_cases hd : m.metric ip2[i] p < m.threshold * m.metric ip2[j] p
    · rw [if_pos hd]
      refine ⟨some i, rfl, fun i' => ⟨?_, ?_⟩⟩
      · rintro ⟨⟩
        exact ⟨j, _, _, hk, List.getElem?_eq_getElem hi, List.getElem?_eq_getElem hj, ((check_iff _ _ _).1 hc).1, ((check_iff _ _ _).1 hc).2, hd⟩
      · rintro ⟨j', r, s, h, -⟩
        rw [hk] at h; cases h; rfl
    · rw [if_neg hd]
      refine ⟨none, rfl, fun i' => ⟨by simp, ?_⟩⟩
      rintro ⟨j', r, s, h, hr', hs', -, -, h5⟩
      rw [hk] at h; cases h
      rw [List.getElem?_eq_getElem hi] at hr'; rw [List.getElem?_eq_getElem hj] at hs'
      cases hr'; cases hs'
      exact absurd h5 hd

theorem entry_rejected (m : Matcher) (knn : Point → Option (ℕ × ℕ)) (ip2 : List Point) (p : Point)
    (hr : Rejected m knn ip2 p) : entry m knn ip2 p = [] := by
  obtain ⟨i, j, r, hk, hi, hc⟩ := hr
  unfold entry
  rw [hk]
  simp only [hi]
  cases hj : ip2[j]? with
  | none => rfl
  | some s =>
    simp only []
    rw [if_neg (fun h => hc ((check_iff _ _ _).1 h))]

theorem flatMap_singletons {α β : Type} (f : α → List β) (g : α → β) (l : List α) (h : ∀ a ∈ l, f a = [g a]) :
    l.flatMap f = l.map g := by
  induction l with
  | nil => rfl
  | cons a l ih => rw [List.flatMap_cons, List.map_cons, h a (by simp), ih (fun b hb => h b (by simp [hb]))]; rfl

theorem entries_accepted (m : Matcher) (knn : Point → Option (ℕ × ℕ)) (ip1 ip2 : List Point) (hv : ValidSearch knn ip1 ip2)
    (hr : ∀ p ∈ ip1, ¬ Rejected m knn ip2 p) :
    ∃ g : Point → Option ℕ, ip1.flatMap (entry m knn ip2) = ip1.map g ∧ ∀ p ∈ ip1, ∀ i, g p = some i ↔ HasMatch m knn ip2 p i := by
  have h : ∀ p ∈ ip1, entry m knn ip2 p = [(entry m knn ip2 p).head?.join] ∧
      ∀ i, (entry m knn ip2 p).head?.join = some i ↔ HasMatch m knn ip2 p i := by
    intro p hp
    obtain ⟨o, e, ho⟩ := entry_accepted m knn ip2 p (hv p hp) (hr p hp)
    rw [e]
    exact ⟨by simp, by simpa using ho⟩
  exact ⟨fun p => (entry m knn ip2 p).head?.join, flatMap_singletons _ _ _ (fun p hp => (h p hp).1), fun p hp => (h p hp).2⟩

/-- **C130 (index list).** Both lists not empty, any result of the search with valid indices, and a constraint that rejects no nearest
point (as `NullConstraint`): the index list has the length of the first list, and its entry for a point is the index of its match,
or none if there is none. -/
theorem indices_spec (m : Matcher) (knn : Point → Option (ℕ × ℕ)) (ip1 ip2 : List Point) (h1 : ip1 ≠ []) (h2 : ip2 ≠ [])
    (hv : ValidSearch knn ip1 ip2) (hr : ∀ p ∈ ip1, ¬ Rejected m knn ip2 p) :
    ∃ l, m.indices knn ip1 ip2 = some l ∧ l.length = ip1.length ∧
      ∀ k (hk : k < ip1.length) i, l[k]? = some (some i) ↔ HasMatch m knn ip2 ip1[k] i := by
  obtain ⟨g, e, hg⟩ := entries_accepted m knn ip1 ip2 hv hr
  refine ⟨ip1.map g, ?_, by simp, ?_⟩
  · unfold Matcher.indices
    rw [if_neg (by simp [h1, h2]), indexLoop_eq m knn ip2 ip1 hv, e]; rfl
  · intro k hk i
    rw [List.getElem?_map, List.getElem?_eq_getElem hk]
    simp only [Option.map_some, Option.some.injEq]
    exact hg _ (List.getElem_mem hk) i

/-- **C130 (number of indices).** In general the index list has an entry for every point whose nearest is not rejected, and for no other;
so it is shorter than the first list if a constraint rejects, against the documentation, and empty if one list is empty. -/
theorem indices_length (m : Matcher) (knn : Point → Option (ℕ × ℕ)) (ip1 ip2 : List Point) (hv : ValidSearch knn ip1 ip2) :
    ∃ l, m.indices knn ip1 ip2 = some l ∧ (ip1 ≠ [] → ip2 ≠ [] → l.length ≤ ip1.length ∧
      (l.length < ip1.length ↔ ∃ p ∈ ip1, Rejected m knn ip2 p)) ∧ (ip2 = [] → l = []) := by
  unfold Matcher.indices
  by_cases h : ip1.length = 0 ∨ ip2.length = 0
  · rw [if_pos h]
    refine ⟨[], rfl, ?_, fun _ => rfl⟩
    intro h1 h2
    simp [h1, h2] at h
  · rw [if_neg h, indexLoop_eq m knn ip2 ip1 hv]
    refine ⟨_, rfl, fun a b => ?_, ?_⟩
    · rw [List.nil_append]
      clear h a
      induction ip1 with
      | nil => simp
      | cons p ps ih =>
        obtain ⟨ih1, ih2⟩ := ih (fun q hq => hv q (by simp [hq]))
        rw [List.flatMap_cons, List.length_append, List.length_cons]
        by_cases hr : Rejected m knn ip2 p
        · rw [entry_rejected m knn ip2 p hr]
          refine ⟨by simp only [List.length_nil]; omega, ⟨fun _ => ⟨p, by simp, hr⟩, fun _ => by simp only [List.length_nil]; omega⟩⟩
        · obtain ⟨o, e, -⟩ := entry_accepted m knn ip2 p (hv p (by simp)) hr
          rw [e]
          refine ⟨by simp only [List.length_singleton]; omega, ?_⟩
          rw [List.length_singleton]
          constructor
          · intro h
            obtain ⟨q, hq, hqr⟩ := ih2.1 (by omega)
            exact ⟨q, by simp [hq], hqr⟩
          · rintro ⟨q, hq, hqr⟩
            rcases List.mem_cons.1 hq with rfl | hq
            · exact absurd hqr hr
            · have := ih2.2 ⟨q, hq, hqr⟩; omega
    · intro h2; simp [h2] at h

theorem pairLoop_map (ip2 : List Point) (g : Point → Option ℕ) (ip1 : List Point) (out : List (Point × Point)) :
    pairLoop ip2 ip1 (ip1.map g) out = (out ++ ip1.filterMap (fun p => ((g p).bind (fun k => ip2[k]?)).map (fun q => (p, q))), true) := by
  induction ip1 generalizing out with
  | nil => simp [pairLoop]
  | cons p ps ih =>
    rw [List.map_cons]
    unfold pairLoop
    rcases h : (g p).bind (fun k => ip2[k]?) with _ | q
    · simp only []
      rw [ih, List.filterMap_cons_none (by simp [h])]
    · simp only []
      rw [ih, List.filterMap_cons_some (b := (p, q)) (by simp [h])]
      simp

theorem pairLoop_short (ip2 : List Point) (ip1 : List Point) (l : List (Option ℕ)) (out : List (Point × Point)) :
    (pairLoop ip2 ip1 l out).2 = decide (ip1.length ≤ l.length) := by
  induction ip1 generalizing l out with
  | nil => simp [pairLoop]
  | cons p ps ih =>
    cases l with
    | nil => simp [pairLoop]
    | cons k ks =>
      unfold pairLoop
      cases k.bind (fun k => ip2[k]?) <;> simp [ih]

/-- **C130 (matched lists).** Both lists not empty, valid indices, no nearest point rejected: the matched lists pair, in the order of the
first list, each point that has a match with this match, and no other. -/
theorem pairs_spec (m : Matcher) (knn : Point → Option (ℕ × ℕ)) (ip1 ip2 : List Point) (h1 : ip1 ≠ []) (h2 : ip2 ≠ [])
    (hv : ValidSearch knn ip1 ip2) (hr : ∀ p ∈ ip1, ¬ Rejected m knn ip2 p) :
    ∃ l, m.pairs knn ip1 ip2 = some (l, true) ∧ (l.map Prod.fst).Sublist ip1 ∧
      (∀ pq ∈ l, ∃ i, HasMatch m knn ip2 pq.1 i ∧ ip2[i]? = some pq.2) ∧
      (∀ p ∈ ip1, ∀ i, HasMatch m knn ip2 p i → ∃ q, ip2[i]? = some q ∧ (p, q) ∈ l) := by
  obtain ⟨g, e, hg⟩ := entries_accepted m knn ip1 ip2 hv hr
  have hi : m.indices knn ip1 ip2 = some (ip1.map g) := by
    unfold Matcher.indices
    rw [if_neg (by simp [h1, h2]), indexLoop_eq m knn ip2 ip1 hv, e]; rfl
  refine ⟨_, by rw [Matcher.pairs, hi, Option.map_some, pairLoop_map, List.nil_append], ?_, ?_, ?_⟩
  · rw [List.map_filterMap]
    clear e hg hi hr hv h1
    induction ip1 with
    | nil => simp
    | cons p ps ih =>
      rcases h : (g p).bind (fun k => ip2[k]?) with _ | q
      · rw [List.filterMap_cons_none (by simp [h])]; exact ih.cons _
      · rw [List.filterMap_cons_some (b := p) (by simp [h])]; exact ih.cons_cons _
  · rintro ⟨p, q⟩ hpq
    rw [List.mem_filterMap] at hpq
    obtain ⟨p', hp', h⟩ := hpq
    cases hgp : g p' with
    | none => rw [hgp] at h; cases h
    | some i =>
      rw [hgp] at h
      cases hq : ip2[i]? with
      | none => simp [hq] at h
      | some q' =>
        simp [hq] at h
        obtain ⟨rfl, rfl⟩ := h
        exact ⟨i, (hg _ hp' i).1 hgp, hq⟩
  · intro p hp i hm
    have hgp := (hg p hp i).2 hm
    obtain ⟨j, r, s, -, hri, -⟩ := hm
    exact ⟨r, hri, List.mem_filterMap.2 ⟨p, hp, by simp [hgp, hri]⟩⟩

/-- **C130 (when the matched lists are defined).** The loop that makes the pairs reads past the end of the index list exactly if the
constraint rejects the nearest point of some point of the first list, or the second list is empty and the first is not. -/
theorem pairs_undefined (m : Matcher) (knn : Point → Option (ℕ × ℕ)) (ip1 ip2 : List Point) (hv : ValidSearch knn ip1 ip2) :
    ∃ l b, m.pairs knn ip1 ip2 = some (l, b) ∧
      (b = false ↔ (ip1 ≠ [] ∧ ip2 = []) ∨ ∃ p ∈ ip1, Rejected m knn ip2 p) := by
  obtain ⟨l, hl, h1, h2⟩ := indices_length m knn ip1 ip2 hv
  refine ⟨(pairLoop ip2 ip1 l []).1, (pairLoop ip2 ip1 l []).2, by rw [Matcher.pairs, hl]; rfl, ?_⟩
  rw [pairLoop_short, decide_eq_false_iff_not, not_le]
  by_cases e1 : ip1 = []
  · subst e1
    simp
  by_cases e2 : ip2 = []
  · rw [h2 e2]
    constructor
    · intro _; exact Or.inl ⟨e1, e2⟩
    · intro _; exact List.length_pos_iff.2 e1
  · rw [(h1 e1 e2).2]
    constructor
    · intro h; exact Or.inr h
    · rintro (h | h)
      · exact absurd h.2 e2
      · exact h

/-- A point at a place with a descriptor. -/
def pt (x y : ℚ) (d : List ℚ) : Point := ⟨x, y, 1, 0, 0, 0, 0, false, 0, 0, d⟩

/-- A matcher with the Euclidean metric. -/
def exMatcher (c : Point → Point → Bool) : Matcher := ⟨c, fun p q => l2 1000000 p.descriptor q.descriptor, 1 / 2, false⟩

/-- The search of the examples: point (a, .) has the nearest neighbours number a and 0. -/
def exKnn (p : Point) : Option (ℕ × ℕ) := if p.x = 0 then some (0, 2) else if p.x = 1 then some (1, 0) else if p.x = 2 then some (2, 0) else none

/-- A case without constraint: of four points two have a match, one is not close enough, for one less than two are found. -/
example : (exMatcher (fun _ _ => true)).pairs exKnn [pt 0 0 [1], pt 1 0 [5], pt 2 0 [40], pt 3 0 [0]] [pt 10 0 [1], pt 11 0 [4], pt 12 0 [19]] =
    some ([(pt 0 0 [1], pt 10 0 [1]), (pt 1 0 [5], pt 11 0 [4]), (pt 2 0 [40], pt 12 0 [19])], true) ∧
    (exMatcher (fun _ _ => true)).indices exKnn [pt 0 0 [1], pt 1 0 [3], pt 3 0 [0]] [pt 10 0 [1], pt 11 0 [5], pt 12 0 [19]] =
    some [some 0, none, none] := by
  decide +kernel

/-- **Refuted (C130).** With a constraint that rejects the nearest neighbour of the first point, the second point is paired with the
match of the third, then the end of the index list is read. -/
theorem pairs_misaligned :
    (exMatcher (position (-100) 100 (-1) 1)).pairs exKnn [pt 0 5 [1], pt 1 0 [5], pt 2 0 [18]] [pt 10 0 [1], pt 11 0 [60], pt 12 0 [18]] =
      some ([(pt 1 0 [5], pt 12 0 [18])], false) := by
  decide +kernel

/-! ### The simple matcher -/

/-- `ip2[j]` is a candidate for `p`: the same polarity. -/
def Candidate (ip2 : List Point) (p : Point) (j : ℕ) (q : Point) : Prop := ip2[j]? = some q ∧ p.polarity = q.polarity

/-- The state after the candidates among the first points: either none yet, or the first index of least distance, its distance, and
the second least. -/
def SimpleInv (metric : Point → Point → ℚ) (B : ℚ) (p : Point) (seen : List Point) (st : Option ℕ × ℚ × ℚ) : Prop :=
  (st.1 = none ∧ st.2.1 = B ∧ st.2.2 = B ∧ ∀ j q, ¬ Candidate seen p j q) ∨
  (∃ j q, st.1 = some j ∧ Candidate seen p j q ∧ st.2.1 = metric p q ∧
    (∀ k r, Candidate seen p k r → metric p q ≤ metric p r ∧ (k < j → metric p q < metric p r)) ∧
    (∀ k r, Candidate seen p k r → k ≠ j → st.2.2 ≤ metric p r) ∧ st.2.2 ≤ B ∧
    (st.2.2 = B ∨ ∃ k r, k ≠ j ∧ Candidate seen p k r ∧ st.2.2 = metric p r) ∧ metric p q ≤ st.2.2)

theorem candidate_append (seen : List Point) (q : Point) (p : Point) (k : ℕ) (r : Point) :
    Candidate (seen ++ [q]) p k r ↔ Candidate seen p k r ∨ (k = seen.length ∧ r = q ∧ p.polarity = q.polarity) := by
  unfold Candidate
  rw [List.getElem?_append]
  by_cases h : k < seen.length
  · rw [if_pos h]
    constructor
    · exact Or.inl
    · rintro (h' | h')
      · exact h'
      · omega
  · rw [if_neg h]
    rw [List.getElem?_eq_none (by omega : seen.length ≤ k)]
    constructor
    · rintro ⟨h1, h2⟩
      right
      have hk : k - seen.length < 1 := by
        by_contra hk
        rw [List.getElem?_eq_none (by simp; omega)] at h1; cases h1
      have : k - seen.length = 0 := by omega
      rw [this] at h1
      simp at h1
      subst h1
      exact ⟨by omega, rfl, h2⟩
    · rintro (⟨h', -⟩ | ⟨rfl, rfl, h2⟩)
      · cases h'
      · simp [h2]

theorem candidate_lt {seen : List Point} {p : Point} {k : ℕ} {r : Point} (h : Candidate seen p k r) : k < seen.length := by
  unfold Candidate at h
  by_contra hk
  rw [List.getElem?_eq_none (by omega)] at h; cases h.1

theorem simpleLoop_inv (metric : Point → Point → ℚ) (B : ℚ) (p : Point) (rest : List Point) :
    ∀ (seen : List Point) (st : Option ℕ × ℚ × ℚ), (∀ q ∈ seen ++ rest, metric p q < B) → SimpleInv metric B p seen st →
      SimpleInv metric B p (seen ++ rest) (simpleLoop metric p rest seen.length st) := by
  induction rest with
  | nil => intro seen st _ h; simpa [simpleLoop] using h
  | cons q qs ih =>
    rintro seen ⟨idx, f, s⟩ hB h
    have hq : metric p q < B := hB q (by simp)
    have key : ∀ st', SimpleInv metric B p (seen ++ [q]) st' →
        SimpleInv metric B p (seen ++ q :: qs) (simpleLoop metric p qs (seen.length + 1) st') := by
      intro st' h'
      have := ih (seen ++ [q]) st' (by simpa using hB) h'
      simpa using this
    unfold simpleLoop
    by_cases hp : p.polarity ≠ q.polarity
    · rw [if_pos hp]
      apply key
      have ec : ∀ k r, Candidate (seen ++ [q]) p k r ↔ Candidate seen p k r := by
        intro k r
        rw [candidate_append]
        constructor
        · rintro (h | h)
          · exact h
          · exact absurd h.2.2 hp
        · exact Or.inl
      unfold SimpleInv at h ⊢
      simp only [ec]
      exact h
    · rw [if_neg hp]
      have hpq : p.polarity = q.polarity := by simpa using hp
      have hc : Candidate (seen ++ [q]) p seen.length q := (candidate_append _ _ _ _ _).2 (Or.inr ⟨rfl, rfl, hpq⟩)
      rcases h with ⟨h1, h2, h3, h4⟩ | ⟨j, r0, h1, h2, h3, h4, h5, h6, h7, h8⟩
      · simp only at h1 h2 h3
        subst h1 h2 h3
        rw [if_pos hq]
        apply key
        right
        refine ⟨seen.length, q, rfl, hc, rfl, ?_, ?_, le_refl _, Or.inl rfl, hq.le⟩
        · intro k r hk
          rcases (candidate_append _ _ _ _ _).1 hk with hk | ⟨rfl, rfl, -⟩
          · exact absurd hk (h4 _ _)
          · exact ⟨le_refl _, fun h => absurd h (lt_irrefl _)⟩
        · intro k r hk hne
          rcases (candidate_append _ _ _ _ _).1 hk with hk | ⟨rfl, rfl, -⟩
          · exact absurd hk (h4 _ _)
          · exact absurd rfl hne
      · simp only at h1 h3 h5 h6 h7 h8
        subst h1 h3
        have hj := candidate_lt h2
        have h2' : Candidate (seen ++ [q]) p j r0 := (candidate_append _ _ _ _ _).2 (Or.inl h2)
        by_cases hlt : metric p q < metric p r0
        · rw [if_pos hlt]
          apply key
          right
          refine ⟨seen.length, q, rfl, hc, rfl, ?_, ?_, ?_, ?_, hlt.le⟩
          · intro k r hk
            rcases (candidate_append _ _ _ _ _).1 hk with hk | ⟨rfl, rfl, -⟩
            · have := (h4 k r hk).1
              exact ⟨by linarith, fun _ => by linarith⟩
            · exact ⟨le_refl _, fun h => absurd h (lt_irrefl _)⟩
          · intro k r hk hne
            rcases (candidate_append _ _ _ _ _).1 hk with hk | ⟨rfl, rfl, -⟩
            · exact (h4 k r hk).1
            · exact absurd rfl hne
          · exact h8.trans h6
          · right; exact ⟨j, r0, by omega, h2', rfl⟩
        · rw [if_neg hlt]
          rw [not_lt] at hlt
          have hmin : ∀ k r, Candidate (seen ++ [q]) p k r → metric p r0 ≤ metric p r ∧ (k < j → metric p r0 < metric p r) := by
            intro k r hk
            rcases (candidate_append _ _ _ _ _).1 hk with hk | ⟨rfl, rfl, -⟩
            · exact h4 k r hk
            · exact ⟨hlt, fun h => by omega⟩
          by_cases hs : metric p q < s
          · rw [if_pos hs]
            apply key
            right
            refine ⟨j, r0, rfl, h2', rfl, hmin, ?_, hq.le, Or.inr ⟨seen.length, q, by omega, hc, rfl⟩, hlt⟩
            intro k r hk hne
            rcases (candidate_append _ _ _ _ _).1 hk with hk | ⟨rfl, rfl, -⟩
            · exact hs.le.trans (h5 k r hk hne)
            · exact le_refl _
          · rw [if_neg hs]
            rw [not_lt] at hs
            apply key
            right
            refine ⟨j, r0, rfl, h2', rfl, hmin, ?_, h6, ?_, h8⟩
            · intro k r hk hne
              rcases (candidate_append _ _ _ _ _).1 hk with hk | ⟨rfl, rfl, -⟩
              · exact h5 k r hk hne
              · exact hs
            · rcases h7 with h7 | ⟨k, r, hne, hk, e⟩
              · exact Or.inl h7
              · exact Or.inr ⟨k, r, hne, (candidate_append _ _ _ _ _).2 (Or.inl hk), e⟩

/-- **C130 (simple matcher).** For distances below 1e100 and a threshold that is not negative, `p` is matched with `ip2[j]` exactly if
this has the same polarity as `p`, is the first of the least distance among those of the same polarity, and its distance is at most
the threshold times the distance of every other of them (and times 1e100). -/
theorem simpleIndex_spec (metric : Point → Point → ℚ) (thr : ℚ) (ip2 : List Point) (p : Point) (ht : 0 ≤ thr)
    (hB : ∀ q ∈ ip2, metric p q < 10 ^ 100) (j : ℕ) :
    simpleIndex metric thr ip2 p = some j ↔
      ∃ q, Candidate ip2 p j q ∧ (∀ k r, Candidate ip2 p k r → metric p q ≤ metric p r ∧ (k < j → metric p q < metric p r)) ∧
        (∀ k r, Candidate ip2 p k r → k ≠ j → metric p q ≤ thr * metric p r) ∧ metric p q ≤ thr * 10 ^ 100 := by
  have inv := simpleLoop_inv metric (10 ^ 100) p ip2 [] (none, 10 ^ 100, 10 ^ 100) (by simpa using hB)
    (Or.inl ⟨rfl, rfl, rfl, fun j q h => by simp [Candidate] at h⟩)
  rw [List.nil_append, List.length_nil] at inv
  unfold simpleIndex
  simp only []
  rcases inv with ⟨h1, h2, h3, h4⟩ | ⟨j0, q0, h1, h2, h3, h4, h5, h6, h7, h8⟩
  · rw [h1]
    constructor
    · intro h; split at h <;> cases h
    · rintro ⟨q, hq, -⟩; exact absurd hq (h4 j q)
  · constructor
    · intro h
      by_cases hg : (simpleLoop metric p ip2 0 (none, 10 ^ 100, 10 ^ 100)).2.1 > thr * (simpleLoop metric p ip2 0 (none, 10 ^ 100, 10 ^ 100)).2.2
      · rw [if_pos hg] at h; cases h
      · rw [if_neg hg, h1] at h
        cases h
        rw [not_lt, h3] at hg
        refine ⟨q0, h2, h4, ?_, ?_⟩
        · intro k r hk hne
          exact hg.trans (mul_le_mul_of_nonneg_left (h5 k r hk hne) ht)
        · exact hg.trans (mul_le_mul_of_nonneg_left h6 ht)
    · rintro ⟨q, hq, hmin, hthr, hB'⟩
      have ej : j = j0 := by
        rcases Nat.lt_trichotomy j j0 with hlt | he | hlt
        · have a := (h4 j q hq).2 hlt
          have b := (hmin j0 q0 h2).1
          linarith
        · exact he
        · have a := (hmin j0 q0 h2).2 hlt
          have b := (h4 j q hq).1
          linarith
      subst ej
      have eq0 : q = q0 := by
        have := hq.1.symm.trans h2.1
        simpa using this
      subst eq0
      rw [if_neg, h1]
      rw [not_lt, h3]
      rcases h7 with h7 | ⟨k, r, hne, hk, e⟩
      · rw [h7]; exact hB'
      · rw [e]; exact hthr k r hk hne

/-- The pairs of the simple matcher: in the order of the first list, every point that has a match with it. -/
theorem simpleMatch_spec (metric : Point → Point → ℚ) (thr : ℚ) (ip1 ip2 : List Point) :
    simpleMatch metric thr ip1 ip2 =
      ip1.filterMap (fun p => (simpleIndex metric thr ip2 p).bind (fun k => (ip2[k]?).map (fun q => (p, q)))) := by
  unfold simpleMatch
  by_cases h : ip1.length = 0 ∨ ip2.length = 0
  · rw [if_pos h]
    rcases h with h | h
    · rw [List.length_eq_zero_iff] at h; subst h; rfl
    · rw [List.length_eq_zero_iff] at h; subst h
      symm
      rw [List.filterMap_eq_nil_iff]
      intro p _
      cases simpleIndex metric thr [] p <;> simp
  · rw [if_neg h]

example : simpleMatch (fun p q => l2 1000000 p.descriptor q.descriptor) (1 / 2) [pt 0 0 [1], pt 1 0 [5], pt 2 0 [11]]
    [pt 10 0 [1], pt 11 0 [9], pt 12 0 [14]] = [(pt 0 0 [1], pt 10 0 [1]), (pt 2 0 [11], pt 11 0 [9])] := by
  decide +kernel

/-- **Refuted (C130).** "The nearest is significantly closer than the next one": two points with the descriptor of `p` are equally close,
and `p` is matched with the first; the matcher on the tree matches such a point never (whatever the threshold). -/
theorem simple_ambiguous (metric : Point → Point → ℚ) (thr : ℚ) (p q r : Point) (hq : metric p q = 0) (hr : metric p r = 0)
    (h1 : p.polarity = q.polarity) (h2 : p.polarity = r.polarity) (ht : 0 ≤ thr) :
    simpleMatch metric thr [p] [q, r] = [(p, q)] ∧
      ∀ (m : Matcher) knn, m.metric q p = 0 → m.metric r p = 0 → knn p = some (0, 1) → ∀ i, ¬ HasMatch m knn [q, r] p i := by
  constructor
  · have : simpleIndex metric thr [q, r] p = some 0 := by
      rw [simpleIndex_spec metric thr [q, r] p ht (by
        intro x hx
        simp only [List.mem_cons, List.not_mem_nil, or_false] at hx
        rcases hx with rfl | rfl
        · rw [hq]; positivity
        · rw [hr]; positivity)]
      have hz : ∀ k x, Candidate [q, r] p k x → metric p x = 0 := by
        rintro k x ⟨hk, -⟩
        have := List.mem_of_getElem? hk
        simp only [List.mem_cons, List.not_mem_nil, or_false] at this
        rcases this with rfl | rfl
        · exact hq
        · exact hr
      refine ⟨q, ⟨rfl, h1⟩, ?_, ?_, ?_⟩
      · intro k x hk
        rw [hz k x hk, hq]
        exact ⟨le_refl _, fun h => by omega⟩
      · intro k x hk _
        rw [hz k x hk, hq]; simp
      · rw [hq]; positivity
    rw [simpleMatch_spec]
    simp [this]
  · rintro m knn hmq hmr hk i ⟨j, a, b, h, ha, hb, -, -, h5⟩
    rw [hk] at h
    cases h
    simp at ha hb
    subst ha hb
    rw [hmq, hmr] at h5
    simp at h5

end VW.IPMatch
