import Verif.CDF.Model

/-! Lemmas on the loops of `CDFAccumulator::update`. -/

namespace VW.CDF

/-- The probabilities increase and are in (0, 1). -/
structure CdfOk (nq : ℕ) (cdf : ℕ → ℚ) : Prop where
  strict : ∀ i j, i < j → j < nq → cdf i < cdf j
  pos : ∀ i, i < nq → 0 < cdf i
  lt_one : ∀ i, i < nq → cdf i < 1

/-- The quantiles do not decrease. -/
def Mono (nq : ℕ) (Q : ℕ → ℚ) : Prop := ∀ i j, i ≤ j → j < nq → Q i ≤ Q j

theorem sorted_getD {s : List ℚ} (hs : s.Pairwise (· ≤ ·)) {i j : ℕ} (hij : i ≤ j) (hj : j < s.length) : s.getD i 0 ≤ s.getD j 0 := by
  rw [List.getD_eq_getElem _ _ (by omega : i < s.length), List.getD_eq_getElem _ _ hj]
  rcases Nat.lt_or_ge i j with h | h
  · exact List.pairwise_iff_getElem.1 hs i j (by omega) hj h
  · obtain rfl : i = j := by omega
    exact le_refl _

/-- What holds when the loop over the targets, or the search, begins a round: the last time and value are `t` and `q`. -/
structure Head (nq n : ℕ) (Q cdf : ℕ → ℚ) (s : List ℚ) (st : St) : Prop where
  told : st.told = st.tnew
  qold : st.qold = st.qnew
  jd : st.jd ≤ s.length
  jq : st.jq ≤ nq
  jq1 : 1 ≤ st.jq
  leQ : st.jq < nq → st.qnew ≤ Q st.jq
  leS : ∀ i, st.jd ≤ i → i < s.length → st.qnew ≤ s.getD i 0
  full : st.jq = nq → (s.length : ℚ) + n * cdf (nq - 1) ≤ st.tnew

/-- The search ends, within the samples and quantiles, with the target between the two times, the two values in order. -/
theorem search_spec {nq n : ℕ} {Q cdf : ℕ → ℚ} {s : List ℚ} (hQ : Mono nq Q) (hs : s.Pairwise (· ≤ ·))
    (hlast : ∀ x ∈ s, x ≤ Q (nq - 1)) {target : ℚ} (ht : target ≤ s.length + n * cdf (nq - 1)) :
    ∀ (fuel : ℕ) (st : St), Head nq n Q cdf s st → st.tnew < target → (nq - st.jq) + (s.length - st.jd) < fuel →
      ∃ st', search nq n Q cdf s target fuel st = some st' ∧ st'.told < target ∧ target ≤ st'.tnew ∧
        st.qnew ≤ st'.qold ∧ st'.qold ≤ st'.qnew ∧ (st'.qnew ≤ Q (nq - 1)) ∧
        Head nq n Q cdf s ⟨st'.jd, st'.jq, st'.tnew, st'.tnew, st'.qnew, st'.qnew⟩ := by
  intro fuel
  induction fuel with
  | zero => intro st _ _ h; omega
  | succ fuel ih =>
    intro st hd hlt hf
    have hjq : st.jq < nq := by
      rcases Nat.lt_or_ge st.jq nq with h | h
      · exact h
      · exfalso
        have := hd.full (le_antisymm hd.jq h)
        linarith
    have hmem : ∀ i, i < s.length → s.getD i 0 ≤ Q (nq - 1) := by
      intro i hi
      rw [List.getD_eq_getElem _ _ hi]
      exact hlast _ (List.getElem_mem hi)
    unfold search
    by_cases hb : st.jq < nq ∧ (s.length ≤ st.jd ∨ Q st.jq < s.getD st.jd 0)
    · rw [if_pos hb]
      have hq := hd.leQ hjq
      have hhead : Head nq n Q cdf s ⟨st.jd, st.jq + 1, st.jd + n * cdf st.jq, st.jd + n * cdf st.jq, Q st.jq, Q st.jq⟩ := by
        refine ⟨rfl, rfl, hd.jd, hjq, by simp, fun h => hQ _ _ (by simp) h, ?_, ?_⟩
        · intro i hi hi'
          rcases hb.2 with h | h
          · simp only at hi; omega
          · exact h.le.trans (sorted_getD hs hi hi')
        · intro he
          simp only at he ⊢
          have he' : st.jq = nq - 1 := by omega
          rcases Nat.lt_or_ge st.jd s.length with h' | h'
          · exfalso
            rcases hb.2 with h | h
            · omega
            · have := hmem _ h'
              rw [he'] at h
              linarith
          · have : st.jd = s.length := le_antisymm hd.jd h'
            rw [this, he']
      by_cases hg : (st.jd : ℚ) + n * cdf st.jq ≥ target
      · rw [if_pos hg]
        refine ⟨_, rfl, ?_, hg, ?_, ?_, hQ _ _ (by omega) (by omega), hhead⟩
        · simp only; rw [hd.told]; exact hlt
        · simp only; rw [hd.qold]
        · simp only; rw [hd.qold]; exact hq
      · rw [if_neg hg]
        rw [ge_iff_le, not_le] at hg
        obtain ⟨st', h1, h2, h3, h4, h5⟩ := ih _ hhead hg (by simp only; omega)
        exact ⟨st', h1, h2, h3, hq.trans h4, h5⟩
    · rw [if_neg hb]
      have hb' : ¬ (s.length ≤ st.jd ∨ Q st.jq < s.getD st.jd 0) := fun h => hb ⟨hjq, h⟩
      rw [not_or, not_le, not_lt] at hb'
      obtain ⟨hjd, hsQ⟩ := hb'
      rw [if_neg (by omega)]
      have hq := hd.leS st.jd (le_refl _) hjd
      simp only []
      generalize htt : st.told + (if Q st.jq > Q (st.jq - 1) then
        n * (cdf st.jq - cdf (st.jq - 1)) * (s.getD st.jd 0 - st.qold) / (Q st.jq - Q (st.jq - 1)) else 0) = t1
      have hhead : ∀ t : ℚ, Head nq n Q cdf s ⟨st.jd + 1, st.jq, t, t, s.getD st.jd 0, s.getD st.jd 0⟩ := by
        intro t
        refine ⟨rfl, rfl, hjd, hd.jq, hd.jq1, fun _ => hsQ, ?_, ?_⟩
        · intro i hi hi'
          simp only at hi
          exact sorted_getD hs (by omega) hi'
        · intro he; simp only at he; omega
      by_cases g1 : t1 ≥ target
      · rw [if_pos g1]
        refine ⟨_, rfl, ?_, g1, ?_, ?_, hmem _ hjd, hhead t1⟩
        · simp only; rw [hd.told]; exact hlt
        · simp only; rw [hd.qold]
        · simp only; rw [hd.qold]; exact hq
      · rw [if_neg g1]
        rw [ge_iff_le, not_le] at g1
        by_cases g2 : t1 + 1 ≥ target
        · rw [if_pos g2]
          exact ⟨_, rfl, g1, g2, hq, le_refl _, hmem _ hjd, hhead (t1 + 1)⟩
        · rw [if_neg g2]
          rw [ge_iff_le, not_le] at g2
          obtain ⟨st', h1, h2, h3, h4, h5⟩ := ih _ (hhead (t1 + 1)) g2 (by simp only; omega)
          exact ⟨st', h1, h2, h3, hq.trans h4, h5⟩

/-- The new quantile is between the two values. -/
theorem interpolate_between {target : ℚ} {st : St} (h1 : st.told < target) (h2 : target ≤ st.tnew) (h3 : st.qold ≤ st.qnew) :
    st.qold ≤ interpolate target st ∧ interpolate target st ≤ st.qnew := by
  unfold interpolate
  have hp : 0 < st.tnew - st.told := by linarith
  rw [if_neg (by linarith : ¬ st.tnew = st.told)]
  have e : (st.qnew - st.qold) * (target - st.told) / (st.tnew - st.told) =
      (st.qnew - st.qold) * ((target - st.told) / (st.tnew - st.told)) := by ring
  have r0 : 0 ≤ (target - st.told) / (st.tnew - st.told) := div_nonneg (by linarith) hp.le
  have r1 : (target - st.told) / (st.tnew - st.told) ≤ 1 := by rw [div_le_one hp]; linarith
  rw [e]
  have d : 0 ≤ st.qnew - st.qold := by linarith
  constructor
  · have := mul_nonneg d r0; linarith
  · have := mul_le_mul_of_nonneg_left r1 d; linarith

theorem target_le {nq n : ℕ} {cdf : ℕ → ℚ} {s : List ℚ} (hc : CdfOk nq cdf) {iq : ℕ} (hi : iq < nq) :
    ((n + s.length : ℕ) : ℚ) * cdf iq ≤ s.length + n * cdf (nq - 1) := by
  have h1 : cdf iq ≤ cdf (nq - 1) := by
    rcases Nat.lt_or_ge iq (nq - 1) with h | h
    · exact (hc.strict _ _ h (by omega)).le
    · rw [show iq = nq - 1 by omega]
  have h2 := (hc.lt_one iq hi).le
  have h3 : (0 : ℚ) ≤ n := Nat.cast_nonneg _
  have h4 : (0 : ℚ) ≤ (s.length : ℚ) := Nat.cast_nonneg _
  have h5 := mul_le_mul_of_nonneg_left h1 h3
  have h6 := mul_le_mul_of_nonneg_left h2 h4
  push_cast
  linarith

/-- The loop over the targets: all reads are in range, the new quantiles do not decrease, and are between the last value and the maximum. -/
theorem sweep_spec {nq n : ℕ} {Q cdf : ℕ → ℚ} {s : List ℚ} (hQ : Mono nq Q) (hs : s.Pairwise (· ≤ ·))
    (hlast : ∀ x ∈ s, x ≤ Q (nq - 1)) (hc : CdfOk nq cdf) :
    ∀ (k iq : ℕ) (st : St), Head nq n Q cdf s st → st.qnew ≤ Q (nq - 1) → iq + k < nq →
      ∃ l, sweep nq n Q cdf s k iq st = some l ∧ l.length = k ∧ l.Pairwise (· ≤ ·) ∧
        ∀ x ∈ l, st.qnew ≤ x ∧ x ≤ Q (nq - 1) := by
  intro k
  induction k with
  | zero => intro iq st _ _ _; exact ⟨[], rfl, rfl, List.Pairwise.nil, by simp⟩
  | succ k ih =>
    intro iq st hd hq hk
    have key : ∃ st1, (if st.tnew < ((n + s.length : ℕ) : ℚ) * cdf iq then
          search nq n Q cdf s (((n + s.length : ℕ) : ℚ) * cdf iq) (nq + s.length + 1) st else some st) = some st1 ∧
        Head nq n Q cdf s ⟨st1.jd, st1.jq, st1.tnew, st1.tnew, st1.qnew, st1.qnew⟩ ∧ st1.qnew ≤ Q (nq - 1) ∧
        st.qnew ≤ interpolate (((n + s.length : ℕ) : ℚ) * cdf iq) st1 ∧
        interpolate (((n + s.length : ℕ) : ℚ) * cdf iq) st1 ≤ st1.qnew := by
      by_cases hlt : st.tnew < ((n + s.length : ℕ) : ℚ) * cdf iq
      · rw [if_pos hlt]
        obtain ⟨st', h1, h2, h3, h4, h5, h6, h7⟩ := search_spec hQ hs hlast (target_le hc (by omega : iq < nq)) (nq + s.length + 1) st hd hlt
          (by have := hd.jd; omega)
        have := interpolate_between h2 h3 h5
        exact ⟨st', h1, h7, h6, h4.trans this.1, this.2⟩
      · rw [if_neg hlt]
        refine ⟨st, rfl, ⟨rfl, rfl, hd.jd, hd.jq, hd.jq1, hd.leQ, hd.leS, hd.full⟩, hq, ?_⟩
        unfold interpolate
        rw [if_pos hd.told.symm, hd.qold]
        constructor <;> linarith
    obtain ⟨st1, e1, hd1, hq1, hv1, hv2⟩ := key
    obtain ⟨l, e2, h2, h3, h4⟩ := ih (iq + 1) _ hd1 hq1 (by omega)
    unfold sweep
    simp only []
    rw [e1]
    simp only []
    rw [e2]
    refine ⟨_, rfl, by simp [h2], ?_, ?_⟩
    · rw [List.pairwise_cons]
      exact ⟨fun x hx => hv2.trans (h4 x hx).1, h3⟩
    · intro x hx
      rcases List.mem_cons.1 hx with rfl | hx
      · exact ⟨hv1, hv2.trans hq1⟩
      · exact ⟨(hv1.trans hv2).trans (h4 x hx).1, (h4 x hx).2⟩

/-! ### The first batch -/

/-- With no samples merged so far the search finds the sample at which the target is reached. -/
theorem search_first {nq : ℕ} {Q cdf : ℕ → ℚ} {s : List ℚ} (hlast : ∀ x ∈ s, x ≤ Q (nq - 1)) {target : ℚ}
    (ht : target ≤ s.length) :
    ∀ (fuel : ℕ) (st : St), st.told = st.tnew → st.tnew = st.jd → st.jq < nq → st.tnew < target →
      (nq - st.jq) + (s.length - st.jd) < fuel →
      ∃ st', search nq 0 Q cdf s target fuel st = some st' ∧ st'.jq < nq ∧ st.jd < st'.jd ∧ st'.jd ≤ s.length ∧
        st'.tnew = st'.jd ∧ st'.told = st'.jd - 1 ∧ st'.told < target ∧ target ≤ st'.tnew ∧
        st'.qold = s.getD (st'.jd - 1) 0 ∧ st'.qnew = s.getD (st'.jd - 1) 0 := by
  intro fuel
  induction fuel with
  | zero => intro st _ _ _ _ h; omega
  | succ fuel ih =>
    intro st h0 h1 hjq hlt hf
    have hjd : st.jd < s.length := by
      rw [h1] at hlt
      have : (st.jd : ℚ) < s.length := lt_of_lt_of_le hlt ht
      exact_mod_cast this
    unfold search
    by_cases hb : st.jq < nq ∧ (s.length ≤ st.jd ∨ Q st.jq < s.getD st.jd 0)
    · rw [if_pos hb]
      have hz : (st.jd : ℚ) + ((0 : ℕ) : ℚ) * cdf st.jq = st.jd := by push_cast; ring
      rw [hz, if_neg (by rw [← h1]; exact not_le.2 hlt)]
      have hjq' : st.jq + 1 < nq := by
        by_contra hge
        have : st.jq = nq - 1 := by omega
        rcases hb.2 with h | h
        · omega
        · rw [this, List.getD_eq_getElem _ _ hjd] at h
          have := hlast _ (List.getElem_mem hjd)
          linarith
      obtain ⟨st', g⟩ := ih ⟨st.jd, st.jq + 1, st.jd, st.jd, Q st.jq, Q st.jq⟩ rfl rfl hjq' (by simp only; rw [← h1]; exact hlt) (by simp only; omega)
      exact ⟨st', g⟩
    · rw [if_neg hb, if_neg (by omega)]
      simp only []
      have hz : (if Q st.jq > Q (st.jq - 1) then
        ((0 : ℕ) : ℚ) * (cdf st.jq - cdf (st.jq - 1)) * (s.getD st.jd 0 - st.qold) / (Q st.jq - Q (st.jq - 1)) else 0) = 0 := by
        split <;> simp
      rw [hz, add_zero, if_neg (by rw [h0]; exact not_le.2 hlt)]
      by_cases g2 : st.told + 1 ≥ target
      · rw [if_pos g2]
        refine ⟨_, rfl, hjq, Nat.lt_succ_self _, hjd, ?_, ?_, ?_, g2, ?_, ?_⟩
        · simp only; rw [h0, h1]; push_cast; ring
        · simp only; rw [h0, h1]; push_cast; ring
        · simp only; rw [h0]; exact hlt
        · simp
        · simp
      · rw [if_neg g2]
        rw [ge_iff_le, not_le] at g2
        obtain ⟨st', a1, a2, a3, a4⟩ := ih ⟨st.jd + 1, st.jq, st.told + 1, st.told + 1, s.getD st.jd 0, s.getD st.jd 0⟩ rfl
          (by simp only; rw [h0, h1]; push_cast; ring) hjq g2 (by simp only; omega)
        exact ⟨st', a1, a2, by simp only at a3; omega, a4⟩

/-- State between the targets in the first batch: nothing taken yet, or `jd` samples, the last of them the last value. -/
structure First (nq : ℕ) (s : List ℚ) (st : St) : Prop where
  told : st.told = st.tnew
  tnew : st.tnew = st.jd
  jq : st.jq < nq
  jd : st.jd ≤ s.length
  q : 0 < st.jd → st.qold = s.getD (st.jd - 1) 0 ∧ st.qnew = s.getD (st.jd - 1) 0

/-- The quantiles of the first batch: the sample at which the target is reached. -/
theorem sweep_first {nq : ℕ} {Q cdf : ℕ → ℚ} {s : List ℚ} (hlast : ∀ x ∈ s, x ≤ Q (nq - 1)) (hc : CdfOk nq cdf) (hne : s ≠ []) :
    ∀ (k iq : ℕ) (st : St), First nq s st → iq + k < nq → (0 < st.jd → (st.jd : ℚ) - 1 < s.length * cdf iq) →
      ∃ l, sweep nq 0 Q cdf s k iq st = some l ∧ l.length = k ∧
        ∀ i, i < k → ∃ m, m < s.length ∧ l[i]? = some (s.getD m 0) ∧
          (m : ℚ) < s.length * cdf (iq + i) ∧ (s.length : ℚ) * cdf (iq + i) ≤ m + 1 := by
  intro k
  induction k with
  | zero => intro iq st _ _ _; exact ⟨[], rfl, rfl, fun i hi => by omega⟩
  | succ k ih =>
    intro iq st hd hk hprev
    have hpos : (0 : ℚ) < s.length := by
      have := List.length_pos_iff.2 hne
      exact_mod_cast this
    have htpos : 0 < (s.length : ℚ) * cdf iq := mul_pos hpos (hc.pos iq (by omega))
    have htle : (s.length : ℚ) * cdf iq ≤ s.length := by
      have := mul_le_mul_of_nonneg_left (hc.lt_one iq (by omega)).le hpos.le
      linarith
    have key : ∃ st1, (if st.tnew < (s.length : ℚ) * cdf iq then
          search nq 0 Q cdf s ((s.length : ℚ) * cdf iq) (nq + s.length + 1) st else some st) = some st1 ∧
        First nq s ⟨st1.jd, st1.jq, st1.tnew, st1.tnew, st1.qnew, st1.qnew⟩ ∧ 0 < st1.jd ∧
        interpolate ((s.length : ℚ) * cdf iq) st1 = s.getD (st1.jd - 1) 0 ∧
        (st1.jd : ℚ) - 1 < s.length * cdf iq ∧ (s.length : ℚ) * cdf iq ≤ st1.jd := by
      by_cases hlt : st.tnew < (s.length : ℚ) * cdf iq
      · rw [if_pos hlt]
        obtain ⟨st', h1, h2, h3, h4, h5, h6, h7, h8, h9, h10⟩ := search_first (cdf := cdf) hlast htle (nq + s.length + 1) st hd.told hd.tnew hd.jq hlt
          (by have := hd.jq; have := hd.jd; omega)
        refine ⟨st', h1, ⟨rfl, h5, h2, h4, fun _ => ⟨h10, h10⟩⟩, by omega, ?_, ?_, ?_⟩
        · unfold interpolate
          rw [if_neg (by rw [h5, h6]; linarith), h9, h10]; ring
        · rw [← h6]; exact h7
        · rw [← h5]; exact h8
      · rw [if_neg hlt]
        rw [not_lt, hd.tnew] at hlt
        have hjd : 0 < st.jd := by
          have : (0 : ℚ) < st.jd := by linarith
          exact_mod_cast this
        refine ⟨st, rfl, ⟨rfl, hd.tnew, hd.jq, hd.jd, fun h => ⟨(hd.q h).2, (hd.q h).2⟩⟩, hjd, ?_, hprev hjd, hlt⟩
        unfold interpolate
        rw [if_pos hd.told.symm, (hd.q hjd).1, (hd.q hjd).2]; ring
    obtain ⟨st1, e1, hd1, hj, hv, b1, b2⟩ := key
    obtain ⟨l, e2, h2, h3⟩ := ih (iq + 1) _ hd1 (by omega) (fun _ => by
      simp only
      rcases Nat.eq_zero_or_pos k with hk0 | hk0
      · rcases Nat.lt_or_ge (iq + 1) nq with h | h
        · have := mul_lt_mul_of_pos_left (hc.strict iq (iq + 1) (by omega) h) hpos
          linarith
        · omega
      · have := mul_lt_mul_of_pos_left (hc.strict iq (iq + 1) (by omega) (by omega)) hpos
        linarith)
    unfold sweep
    simp only [Nat.zero_add]
    rw [e1]
    simp only []
    rw [e2]
    refine ⟨_, rfl, by simp [h2], ?_⟩
    intro i hi
    cases i with
    | zero =>
      refine ⟨st1.jd - 1, by have := hd1.jd; simp only at this; omega, by simp [hv], ?_, ?_⟩
      · rw [Nat.cast_sub hj]; push_cast; simpa using b1
      · rw [Nat.cast_sub hj]; push_cast; simpa using b2
    | succ i =>
      obtain ⟨m, m1, m2, m3, m4⟩ := h3 i (by omega)
      rw [show iq + 1 + i = iq + (i + 1) by omega] at m3 m4
      exact ⟨m, m1, by simpa using m2, m3, m4⟩

end VW.CDF
