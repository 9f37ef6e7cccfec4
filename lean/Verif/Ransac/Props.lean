import Mathlib.Algebra.Order.Field.Rat
import Mathlib.Algebra.Order.BigOperators.Group.List
import Mathlib.Data.List.Dedup
import Mathlib.Tactic.Linarith
import Mathlib.Tactic.FieldSimp
import Verif.Ransac.Model

/-
Properties of random sample consensus.
-/

namespace Verif.Ransac

variable {A B H E : Type} [Field E] [LinearOrder E]

/-! ### Sampling -/

/-- The index drawn for a value of `std::rand()`. -/
def idx (randMax size r : Nat) : Nat := r * size / (randMax + 1)

theorem pick_aux {rm size n : Nat} : ∀ (draws chosen : List Nat), chosen.Nodup → chosen.length ≤ n →
    (∀ s rest, pick rm size n chosen draws = some (s, rest) → s.length = n ∧ s.Nodup ∧
      (∃ used, draws = used ++ rest ∧ ∀ v, v ∈ s ↔ v ∈ chosen ∨ v ∈ used.map (idx rm size)) ∧ chosen <+: s) ∧
    ((∃ l : List Nat, l.Nodup ∧ n ≤ l.length ∧ ∀ v ∈ l, v ∈ chosen ∨ v ∈ draws.map (idx rm size)) →
      ∃ out, pick rm size n chosen draws = some out)
  | [], chosen, hn, hl => by
    unfold pick
    constructor
    · intro s rest h
      split_ifs at h with hc
      cases h
      exact ⟨hc, hn, ⟨[], rfl, by simp⟩, List.prefix_refl _⟩
    · rintro ⟨l, h1, h2, h3⟩
      have h4 : l.length ≤ chosen.length :=
        (List.subperm_of_subset h1 (fun v hv => (h3 v hv).elim id (fun h => by simp at h))).length_le
      rw [if_pos (by omega)]
      exact ⟨_, rfl⟩
  | r :: draws, chosen, hn, hl => by
    unfold pick
    by_cases hc : chosen.length = n
    · rw [if_pos hc]
      refine ⟨fun s rest h => ?_, fun _ => ⟨_, rfl⟩⟩
      cases h
      exact ⟨hc, hn, ⟨[], rfl, by simp⟩, List.prefix_refl _⟩
    · simp only [if_neg hc]
      change (∀ s rest, (if idx rm size r ∈ chosen then pick rm size n chosen draws
        else pick rm size n (chosen ++ [idx rm size r]) draws) = some (s, rest) → _) ∧ (_ → ∃ out,
          (if idx rm size r ∈ chosen then pick rm size n chosen draws
        else pick rm size n (chosen ++ [idx rm size r]) draws) = some out)
      by_cases hv : idx rm size r ∈ chosen
      · simp only [if_pos hv]
        obtain ⟨a, b⟩ := pick_aux (rm := rm) (size := size) draws chosen hn hl
        constructor
        · intro s rest h
          obtain ⟨a1, a2, ⟨used, a3, a4⟩, a5⟩ := a s rest h
          refine ⟨a1, a2, ⟨r :: used, by rw [a3]; rfl, fun v => ?_⟩, a5⟩
          rw [a4, List.map_cons, List.mem_cons]
          constructor
          · rintro (h | h)
            · exact Or.inl h
            · exact Or.inr (Or.inr h)
          · rintro (h | rfl | h)
            · exact Or.inl h
            · exact Or.inl hv
            · exact Or.inr h
        · rintro ⟨l, h1, h2, h3⟩
          refine b ⟨l, h1, h2, fun v hvl => ?_⟩
          have := h3 v hvl
          rw [List.map_cons, List.mem_cons] at this
          rcases this with h | rfl | h
          · exact Or.inl h
          · exact Or.inl hv
          · exact Or.inr h
      · simp only [if_neg hv]
        have hn2 : (chosen ++ [idx rm size r]).Nodup := by
          rw [List.nodup_append]
          refine ⟨hn, List.nodup_singleton _, ?_⟩
          intro a ha b hb
          rw [List.mem_singleton.1 hb]
          intro hc; rw [hc] at ha; exact hv ha
        obtain ⟨a, b⟩ := pick_aux (rm := rm) (size := size) (n := n) draws (chosen ++ [idx rm size r]) hn2 (by simp; omega)
        constructor
        · intro s rest h
          obtain ⟨a1, a2, ⟨used, a3, a4⟩, a5⟩ := a s rest h
          refine ⟨a1, a2, ⟨r :: used, by rw [a3]; rfl, fun v => ?_⟩, (List.prefix_append _ _).trans a5⟩
          rw [a4, List.map_cons, List.mem_cons, List.mem_append, List.mem_singleton, or_assoc]
        · rintro ⟨l, h1, h2, h3⟩
          refine b ⟨l, h1, h2, fun v hvl => ?_⟩
          have := h3 v hvl
          rw [List.map_cons, List.mem_cons] at this
          rw [List.mem_append, List.mem_singleton, or_assoc]
          exact this

/-- A sample consists of the asked number of different indices of the data, the different values of the draws used. -/
theorem sample_distinct {rm size n : Nat} {draws s rest : List Nat} (hd : ∀ r ∈ draws, r ≤ rm) (hs : 0 < size)
    (h : pick rm size n [] draws = some (s, rest)) :
    s.length = n ∧ s.Nodup ∧ (∀ i ∈ s, i < size) ∧
      ∃ used, draws = used ++ rest ∧ ∀ v, v ∈ s ↔ ∃ r ∈ used, v = r * size / (rm + 1) := by
  obtain ⟨a, b, ⟨used, c, d⟩, _⟩ := (pick_aux draws [] List.nodup_nil (by simp)).1 s rest h
  have d' : ∀ v, v ∈ s ↔ ∃ r ∈ used, v = r * size / (rm + 1) := by
    intro v
    rw [d]
    simp only [List.not_mem_nil, false_or, List.mem_map, idx]
    exact exists_congr (fun r => and_congr_right (fun _ => eq_comm))
  refine ⟨a, b, fun i hi => ?_, used, c, d'⟩
  obtain ⟨r, hr, rfl⟩ := (d' i).1 hi
  have : r ≤ rm := hd r (by rw [c]; simp [hr])
  rw [Nat.div_lt_iff_lt_mul (by omega), Nat.mul_comm]
  exact Nat.mul_lt_mul_of_pos_left (by omega) hs

/-- The sampling ends as soon as the draws have given enough different indices, and not before. -/
theorem sample_ends {rm size n : Nat} {draws : List Nat} :
    (∃ out, pick rm size n [] draws = some out) ↔ n ≤ (draws.map (fun r => r * size / (rm + 1))).dedup.length := by
  constructor
  · rintro ⟨⟨s, rest⟩, h⟩
    obtain ⟨a, b, ⟨used, c, d⟩, _⟩ := (pick_aux draws [] List.nodup_nil (by simp)).1 s rest h
    rw [← a]
    refine (List.subperm_of_subset b (fun v hv => ?_)).length_le
    rw [List.mem_dedup, c, List.map_append, List.mem_append]
    have := (d v).1 hv
    simp only [List.not_mem_nil, false_or] at this
    exact Or.inl this
  · intro h
    exact (pick_aux draws [] List.nodup_nil (by simp)).2 ⟨_, List.nodup_dedup _, h, fun v hv =>
      Or.inr (List.mem_dedup.1 hv)⟩

/-- Draws that keep giving the same index: the sampling never ends. -/
theorem sample_stuck (rm size n r : Nat) (hn : 2 ≤ n) (k : Nat) : pick rm size n [] (List.replicate k r) = none := by
  cases h : pick rm size n [] (List.replicate k r) with
  | none => rfl
  | some out =>
    have := sample_ends.1 ⟨out, h⟩
    rw [List.map_replicate] at this
    have h2 : (List.replicate k (r * size / (rm + 1))).dedup.length ≤ [r * size / (rm + 1)].length :=
      (List.subperm_of_subset (List.nodup_dedup _) (fun v hv => by
        rw [List.mem_dedup] at hv
        rw [List.mem_singleton]
        exact List.eq_of_mem_replicate hv)).length_le
    simp at h2
    omega

theorem pickAll_spec {rm size n : Nat} (hs : 0 < size) : ∀ (k : Nat) {draws : List Nat} {ss rest}, (∀ r ∈ draws, r ≤ rm) →
    pickAll rm size n k draws = some (ss, rest) →
    ss.length = k ∧ (∀ s ∈ ss, s.length = n ∧ s.Nodup ∧ ∀ i ∈ s, i < size) ∧ ∀ r ∈ rest, r ∈ draws
  | 0, draws, ss, rest, _, h => by
    cases h
    exact ⟨rfl, by simp, fun r hr => hr⟩
  | k + 1, draws, ss, rest, hd, h => by
    unfold pickAll at h
    cases h1 : pick rm size n [] draws with
    | none => rw [h1] at h; cases h
    | some o =>
      obtain ⟨s, d⟩ := o
      simp only [h1, Option.bind_eq_bind, Option.bind_some] at h
      obtain ⟨a, b, c, used, e, _⟩ := sample_distinct hd hs h1
      have hd' : ∀ r ∈ d, r ≤ rm := fun r hr => hd r (by rw [e]; simp [hr])
      cases h2 : pickAll rm size n k d with
      | none => rw [h2] at h; cases h
      | some o =>
        obtain ⟨ss', d'⟩ := o
        rw [h2] at h
        cases h
        obtain ⟨p, q, r⟩ := pickAll_spec hs k hd' h2
        refine ⟨by simp [p], fun x hx => ?_, fun x hx => by rw [e]; simp [r x hx]⟩
        rcases List.mem_cons.1 hx with rfl | hx
        · exact ⟨a, b, c⟩
        · exact q x hx

/-! ### Inliers -/

omit [Field E] in
/-- `inlier_indices` gives exactly the positions of the data with an error below the threshold, in order. -/
theorem inlier_indices_spec (P : Params A B H E) (h : H) (p1 : List A) (p2 : List B) :
    (inlierIndices P h p1 p2).Pairwise (· < ·) ∧
      (∀ i, i ∈ inlierIndices P h p1 p2 ↔ ∃ a b, p1[i]? = some a ∧ p2[i]? = some b ∧ P.err h a b < P.thr) ∧
      (inlierIndices P h p1 p2).filterMap (fun i => (p1.zip p2)[i]?) = inliers P h p1 p2 := by
  refine ⟨?_, fun i => ?_, ?_⟩
  · unfold inlierIndices
    have h1 : ((p1.zip p2).zipIdx.map Prod.snd).Pairwise (· < ·) := by
      rw [List.zipIdx_map_snd]
      exact List.pairwise_lt_range'
    exact h1.sublist ((List.filter_sublist).map _)
  · unfold inlierIndices
    simp only [List.mem_map, List.mem_filter, decide_eq_true_eq, Prod.exists]
    constructor
    · rintro ⟨a, b, j, ⟨h1, h2⟩, rfl⟩
      rw [List.mem_zipIdx_iff_getElem?, List.getElem?_zip_eq_some] at h1
      exact ⟨a, b, h1.1, h1.2, h2⟩
    · rintro ⟨a, b, h1, h2, h3⟩
      exact ⟨a, b, i, ⟨by rw [List.mem_zipIdx_iff_getElem?, List.getElem?_zip_eq_some]; exact ⟨h1, h2⟩, h3⟩, rfl⟩
  · unfold inlierIndices inliers
    rw [List.filterMap_map]
    have h1 : ∀ l : List ((A × B) × Nat), (∀ e ∈ l, (p1.zip p2)[e.2]? = some e.1) →
        l.filterMap ((fun i => (p1.zip p2)[i]?) ∘ Prod.snd) = l.map Prod.fst := by
      intro l
      induction l with
      | nil => intro _; rfl
      | cons e l ih =>
        intro hl
        rw [List.filterMap_cons, Function.comp_apply, hl e (by simp), ih (fun x hx => hl x (by simp [hx]))]
        rfl
    rw [h1]
    · have h2 : ∀ (l : List (A × B)) (k : Nat), (((l.zipIdx k).filter (fun p => decide (P.err h p.1.1 p.1.2 < P.thr))).map
          Prod.fst) = l.filter (fun p => decide (P.err h p.1 p.2 < P.thr)) := by
        intro l
        induction l with
        | nil => intro k; rfl
        | cons e l ih =>
          intro k
          rw [List.zipIdx_cons, List.filter_cons, List.filter_cons]
          split_ifs
          · rw [List.map_cons, ih]
          · exact ih _
      exact h2 _ 0
    · intro e he
      exact List.mem_zipIdx_iff_getElem?.1 (List.mem_of_mem_filter he)

/-! ### The best model -/

/-- Candidate of a sample: the model fitted to the sample has at least `m` inliers, `h` is the model fitted again to them
and `e` their mean error. -/
def Candidate (P : Params A B H E) (m : Int) (p1 : List A) (p2 : List B) (s : List Nat) (h : H) (e : E)
    (inl : List (A × B)) : Prop :=
  ∃ h0, h0 = P.fit (s.filterMap (fun i => p1[i]?)) (s.filterMap (fun i => p2[i]?)) ∧
    inl = (p1.zip p2).filter (fun p => P.err h0 p.1 p.2 < P.thr) ∧ m ≤ inl.length ∧
    h = P.refit (inl.map Prod.fst) (inl.map Prod.snd) h0 ∧
    e = (inl.map (fun p => P.err h p.1 p.2)).sum / inl.length

theorem iteration_spec {P : Params A B H E} {m : Int} {p1 : List A} {p2 : List B} {s : List Nat} {c : Cand H E} :
    iteration P m p1 p2 s = some c ↔ ∃ inl, Candidate P m p1 p2 s c.model c.err inl ∧ c.num = inl.length := by
  by_cases h : ((inliers P (P.fit (s.filterMap (fun i => p1[i]?)) (s.filterMap (fun i => p2[i]?))) p1 p2).length : Int) < m
  · have e : iteration P m p1 p2 s = none := if_pos h
    rw [e]
    constructor
    · intro hc; cases hc
    · rintro ⟨inl, ⟨h0, h1, h2, h3, _⟩, _⟩
      subst h1
      subst h2
      unfold inliers at h
      omega
  · have e : iteration P m p1 p2 s = some _ := if_neg h
    rw [e]
    constructor
    · intro hc
      cases hc
      exact ⟨_, ⟨_, rfl, rfl, by unfold inliers at h; omega, rfl, rfl⟩, rfl⟩
    · rintro ⟨inl, ⟨h0, h1, h2, h3, h4, h5⟩, h6⟩
      subst h1
      subst h2
      obtain ⟨ce, cm, cn⟩ := c
      simp only at h4 h5 h6
      subst h4
      subst h5
      subst h6
      rfl

omit [Field E] in
theorem fold_spec {S : Type} (f : S → Option (Cand H E)) : ∀ (l : List S) (st : Best H E),
    let r := l.foldl (fun st s => critical st (f s)) st
    r.minErr ≤ st.minErr ∧ (∀ s ∈ l, ∀ c, f s = some c → r.minErr ≤ c.err) ∧
      ((r = st) ∨ ∃ s ∈ l, ∃ c, f s = some c ∧ c.err < st.minErr ∧ r = ⟨c.err, some c.model, c.num⟩)
  | [], st => ⟨le_refl _, by simp, Or.inl rfl⟩
  | s :: l, st => by
    obtain ⟨a, b, c⟩ := fold_spec f l (critical st (f s))
    simp only [List.foldl_cons]
    have h1 : (critical st (f s)).minErr ≤ st.minErr ∧ (∀ c, f s = some c → (critical st (f s)).minErr ≤ c.err) ∧
        (critical st (f s) = st ∨ ∃ c, f s = some c ∧ c.err < st.minErr ∧
          critical st (f s) = ⟨c.err, some c.model, c.num⟩) := by
      unfold critical
      cases f s with
      | none => exact ⟨le_refl _, fun c hc => (by cases hc), Or.inl rfl⟩
      | some d =>
        by_cases hd : d.err < st.minErr
        · simp only [if_pos hd]
          refine ⟨le_of_lt hd, fun c hc => ?_, Or.inr ⟨d, rfl, hd, rfl⟩⟩
          cases hc; exact le_refl _
        · simp only [if_neg hd]
          refine ⟨le_refl _, fun c hc => ?_, Or.inl trivial⟩
          cases hc; exact not_lt.1 hd
    obtain ⟨h1, h2, h3⟩ := h1
    refine ⟨le_trans a h1, fun t ht d hd => ?_, ?_⟩
    · rcases List.mem_cons.1 ht with rfl | ht
      · exact le_trans a (h2 d hd)
      · exact b t ht d hd
    · rcases c with c | ⟨t, ht, d, e1, e2, e3⟩
      · rw [c]
        rcases h3 with h3 | ⟨d, e1, e2, e3⟩
        · exact Or.inl h3
        · exact Or.inr ⟨s, by simp, d, e1, e2, e3⟩
      · exact Or.inr ⟨t, by simp [ht], d, e1, lt_of_lt_of_le e2 h1, e3⟩

/-- The data can be used: not empty, of one length, and enough for a fit. -/
def Usable (P : Params A B H E) (m : Int) (p1 : List A) (p2 : List B) : Prop :=
  p1.length = p2.length ∧ ∃ a rest, p1 = a :: rest ∧ P.need a ≤ p1.length ∧ (P.need a : Int) ≤ m

/-- Samples drawn for the data. -/
def Drawn (P : Params A B H E) (p1 : List A) (draws : List Nat) (samples : List (List Nat)) : Prop :=
  ∃ a l rest, p1 = a :: l ∧ pickAll P.randMax p1.length (P.need a) P.iters draws = some (samples, rest)

omit [Field E] [LinearOrder E] in
theorem drawn_samples {P : Params A B H E} {p1 : List A} {draws : List Nat} {samples}
    (hd : ∀ r ∈ draws, r ≤ P.randMax) (h : Drawn P p1 draws samples) :
    samples.length = P.iters ∧ ∀ s ∈ samples, s.Nodup ∧ (∀ i ∈ s, i < p1.length) ∧
      ∀ a l, p1 = a :: l → s.length = P.need a := by
  obtain ⟨a, l, rest, h1, h2⟩ := h
  obtain ⟨p, q, _⟩ := pickAll_spec (by rw [h1]; simp) P.iters hd h2
  refine ⟨p, fun s hs => ⟨(q s hs).2.1, (q s hs).2.2, fun a' l' h' => ?_⟩⟩
  rw [h1] at h'
  cases h'
  exact (q s hs).1

theorem attempt_cases {P : Params A B H E} {sched m p1 p2 draws} {r rest}
    (h : attempt P sched m p1 p2 draws = some (r, rest)) :
    (¬ Usable P m p1 p2 ∧ r = none) ∨ (Usable P m p1 p2 ∧ ∃ samples, Drawn P p1 draws samples ∧
      r = (if ((((sched samples).foldl (fun st s => critical st (iteration P m p1 p2 s)) ⟨P.maxErr, none, 0⟩ :
        Best H E).num : Int) < m) then none else
        some (((sched samples).foldl (fun st s => critical st (iteration P m p1 p2 s)) ⟨P.maxErr, none, 0⟩ :
        Best H E).best))) := by
  unfold attempt at h
  cases p1 with
  | nil =>
    cases h
    refine Or.inl ⟨?_, rfl⟩
    rintro ⟨_, a, l, h, _⟩
    cases h
  | cons a l =>
    simp only at h
    split_ifs at h with hc
    · cases h
      refine Or.inl ⟨?_, rfl⟩
      rintro ⟨h1, a', l', h2, h3, h4⟩
      cases h2
      rcases hc with hc | hc | hc
      · exact hc h1
      · omega
      · omega
    · right
      rw [not_or, not_or] at hc
      refine ⟨⟨not_not.1 hc.1, a, l, rfl, by omega, by omega⟩, ?_⟩
      cases hp : pickAll P.randMax (a :: l).length (P.need a) P.iters draws with
      | none => rw [hp] at h; cases h
      | some o =>
        obtain ⟨ss, d⟩ := o
        rw [hp] at h
        simp only [Option.bind_eq_bind, Option.bind_some, Option.some.injEq, Prod.mk.injEq] at h
        exact ⟨ss, ⟨a, l, d, rfl, hp⟩, h.1.symm⟩

/-- The model returned, whatever the order of the threads: the candidate of one of the samples, of which no other
candidate has a smaller mean error. -/
theorem ransac_best {P : Params A B H E} {sched} (hsched : ∀ l, (sched l).Perm l) {m p1 p2 draws rest best} (hm : 1 ≤ m)
    (h : attempt P sched m p1 p2 draws = some (some best, rest)) :
    Usable P m p1 p2 ∧ ∃ samples, Drawn P p1 draws samples ∧ ∃ s ∈ samples, ∃ model e inl,
      best = some model ∧ Candidate P m p1 p2 s model e inl ∧ e < P.maxErr ∧
      ∀ s' ∈ samples, ∀ model' e' inl', Candidate P m p1 p2 s' model' e' inl' → e ≤ e' := by
  rcases attempt_cases h with ⟨_, h⟩ | ⟨hu, samples, hd, hr⟩
  · cases h
  · refine ⟨hu, samples, hd, ?_⟩
    obtain ⟨_, b, c⟩ := fold_spec (fun s => iteration P m p1 p2 s) (sched samples) ⟨P.maxErr, none, 0⟩
    simp only at b c
    split_ifs at hr with hn
    rcases c with c | ⟨s, hs, c, e1, e2, e3⟩
    · rw [c] at hn
      simp only at hn
      omega
    · rw [e3] at hr b
      obtain ⟨inl, i1, i2⟩ := iteration_spec.1 e1
      refine ⟨s, (hsched samples).mem_iff.1 hs, c.model, c.err, inl, Option.some.inj hr, i1, e2, ?_⟩
      intro s' hs' model' e' inl' hc
      exact b s' ((hsched samples).mem_iff.2 hs') ⟨e', model', inl'.length⟩ (iteration_spec.2 ⟨inl', hc, rfl⟩)

/-- The attempt fails exactly if the data cannot be used or no sample has a candidate (with a finite mean error). -/
theorem ransac_fails {P : Params A B H E} {sched} (hsched : ∀ l, (sched l).Perm l) {m p1 p2 draws r rest} (hm : 1 ≤ m)
    (h : attempt P sched m p1 p2 draws = some (r, rest)) :
    r = none ↔ ¬ Usable P m p1 p2 ∨ ∃ samples, Drawn P p1 draws samples ∧
      ∀ s ∈ samples, ∀ model e inl, Candidate P m p1 p2 s model e inl → ¬ e < P.maxErr := by
  rcases attempt_cases h with ⟨hu, h⟩ | ⟨hu, samples, hd, hr⟩
  · exact ⟨fun _ => Or.inl hu, fun _ => h⟩
  · obtain ⟨_, b, c⟩ := fold_spec (fun s => iteration P m p1 p2 s) (sched samples) ⟨P.maxErr, none, 0⟩
    simp only at b c
    constructor
    · intro hrn
      rw [hrn] at hr
      refine Or.inr ⟨samples, hd, fun s hs model e inl hc hlt => ?_⟩
      have hb := b s ((hsched samples).mem_iff.2 hs) ⟨e, model, inl.length⟩ (iteration_spec.2 ⟨inl, hc, rfl⟩)
      rcases c with c | ⟨t, ht, c, e1, e2, e3⟩
      · rw [c] at hb
        exact absurd hlt (not_lt.2 hb)
      · rw [e3] at hr
        obtain ⟨inl', ⟨_, _, _, i1, _⟩, i2⟩ := iteration_spec.1 e1
        rw [if_neg (by simp only [i2]; omega)] at hr
        cases hr
    · rintro (hcon | ⟨samples', hd', hall⟩)
      · exact absurd hu hcon
      · obtain ⟨a, l, d, h1, h2⟩ := hd
        obtain ⟨a', l', d', h1', h2'⟩ := hd'
        rw [h1] at h1'
        cases h1'
        rw [h2] at h2'
        cases h2'
        rcases c with c | ⟨t, ht, c, e1, e2, e3⟩
        · rw [hr, c, if_pos (by simp only; omega)]
        · obtain ⟨inl', i1, i2⟩ := iteration_spec.1 e1
          exact absurd e2 (hall t ((hsched samples).mem_iff.1 ht) _ _ _ i1)

/-- The order in which the threads finish does not matter, unless two different models have the same mean error. -/
theorem ransac_schedule {P : Params A B H E} {sched sched'} (hs : ∀ l, (sched l).Perm l) (hs' : ∀ l, (sched' l).Perm l)
    {m p1 p2 draws} (hm : 1 ≤ m)
    (hties : ∀ samples, Drawn P p1 draws samples → ∀ s ∈ samples, ∀ s' ∈ samples, ∀ h h' e inl inl',
      Candidate P m p1 p2 s h e inl → Candidate P m p1 p2 s' h' e inl' → h = h') :
    attempt P sched m p1 p2 draws = attempt P sched' m p1 p2 draws := by
  have key : ∀ sched : List (List Nat) → List (List Nat), (∀ l, (sched l).Perm l) → ∀ samples, (let st : Best H E := ((sched samples).foldl (fun st s => critical st
      (iteration P m p1 p2 s)) ⟨P.maxErr, none, 0⟩)
      (if (st.num : Int) < m then none else some st.best)) = none ∧ (∀ s ∈ samples, ∀ model e inl,
        Candidate P m p1 p2 s model e inl → ¬ e < P.maxErr) ∨ ∃ s ∈ samples, ∃ model e inl,
        Candidate P m p1 p2 s model e inl ∧ e < P.maxErr ∧
        (∀ s' ∈ samples, ∀ model' e' inl', Candidate P m p1 p2 s' model' e' inl' → e ≤ e') ∧
        (let st : Best H E := ((sched samples).foldl (fun st s => critical st
      (iteration P m p1 p2 s)) ⟨P.maxErr, none, 0⟩)
      (if (st.num : Int) < m then none else some st.best)) = some (some model) := by
    intro sched hs samples
    obtain ⟨_, b, c⟩ := fold_spec (fun s => iteration P m p1 p2 s) (sched samples) ⟨P.maxErr, none, 0⟩
    simp only at b c
    rcases c with c | ⟨t, ht, c, e1, e2, e3⟩
    · left
      rw [c] at b ⊢
      refine ⟨if_pos (by simp only; omega), fun s hss model e inl hc hlt => ?_⟩
      have := b s ((hs samples).mem_iff.2 hss) ⟨e, model, inl.length⟩ (iteration_spec.2 ⟨inl, hc, rfl⟩)
      exact absurd hlt (not_lt.2 this)
    · right
      obtain ⟨inl, i1, i2⟩ := iteration_spec.1 e1
      rw [e3] at b ⊢
      refine ⟨t, (hs samples).mem_iff.1 ht, c.model, c.err, inl, i1, e2, fun s' hs'' model' e' inl' hc => ?_, ?_⟩
      · exact b s' ((hs samples).mem_iff.2 hs'') ⟨e', model', inl'.length⟩ (iteration_spec.2 ⟨inl', hc, rfl⟩)
      · obtain ⟨_, _, _, i3, _⟩ := i1
        exact if_neg (by simp only [i2]; omega)
  unfold attempt
  cases p1 with
  | nil => rfl
  | cons a l =>
    simp only
    split_ifs with hc
    · rfl
    · cases hp : pickAll P.randMax (a :: l).length (P.need a) P.iters draws with
      | none => rfl
      | some o =>
        obtain ⟨ss, d⟩ := o
        simp only [Option.bind_eq_bind, Option.bind_some, Option.some.injEq, Prod.mk.injEq, and_true]
        have hd : Drawn P (a :: l) draws ss := ⟨a, l, d, rfl, hp⟩
        rcases key sched hs ss with ⟨k1, k2⟩ | ⟨s, h1, model, e, inl, h2, h3, h4, h5⟩
        · rcases key sched' hs' ss with ⟨k1', k2'⟩ | ⟨s, h1, model, e, inl, h2, h3, h4, h5⟩
          · exact k1.trans k1'.symm
          · exact absurd h3 (k2 s h1 model e inl h2)
        · rcases key sched' hs' ss with ⟨k1', k2'⟩ | ⟨s', h1', model', e', inl', h2', h3', h4', h5'⟩
          · exact absurd h3 (k2' s h1 model e inl h2)
          · have he : e = e' := le_antisymm (h4 s' h1' _ _ _ h2') (h4' s h1 _ _ _ h2)
            subst he
            have := hties ss hd s h1 s' h1' model model' e inl inl' h2 h2'
            subst this
            exact h5.trans h5'.symm

/-! ### Quality of the model -/

theorem sum_lt_of_all {l : List E} [IsStrictOrderedRing E] {t : E} (hl : l ≠ []) (h : ∀ x ∈ l, x < t) :
    l.sum < l.length * t := by
  induction l with
  | nil => exact absurd rfl hl
  | cons a l ih =>
    rw [List.sum_cons, List.length_cons, Nat.cast_add, Nat.cast_one, add_mul, one_mul, add_comm]
    by_cases hn : l = []
    · subst hn
      simpa using h a (by simp)
    · exact add_lt_add (ih hn (fun x hx => h x (by simp [hx]))) (h a (by simp))

/-- If fitting again to the inliers does not increase the sum of their errors, the mean error is below the threshold. -/
theorem ransac_mean [IsStrictOrderedRing E] {P : Params A B H E} {m : Int} (hm : 1 ≤ m) {p1 p2 s h e inl}
    (hfit : ∀ (l : List (A × B)) h0, (l.map (fun p => P.err (P.refit (l.map Prod.fst) (l.map Prod.snd) h0) p.1 p.2)).sum ≤
      (l.map (fun p => P.err h0 p.1 p.2)).sum)
    (hc : Candidate P m p1 p2 s h e inl) : e < P.thr := by
  obtain ⟨h0, _, h1, h2, rfl, rfl⟩ := hc
  have hpos : 0 < inl.length := by omega
  have hpos' : (0 : E) < inl.length := by exact_mod_cast hpos
  rw [div_lt_iff₀ hpos']
  refine lt_of_le_of_lt (hfit inl h0) ?_
  have := sum_lt_of_all (l := inl.map (fun p => P.err h0 p.1 p.2)) (t := P.thr)
    (by intro hcon; rw [List.map_eq_nil_iff] at hcon; rw [hcon] at hpos; cases hpos)
    (by
      intro x hx
      obtain ⟨p, hp, rfl⟩ := List.mem_map.1 hx
      rw [h1, List.mem_filter] at hp
      exact of_decide_eq_true hp.2)
  rw [List.length_map] at this
  rwa [mul_comm]

theorem all_zero_of_sum {l : List E} [IsStrictOrderedRing E] (h0 : ∀ x ∈ l, 0 ≤ x) (hs : l.sum ≤ 0) : ∀ x ∈ l, x = 0 := by
  induction l with
  | nil => simp
  | cons a l ih =>
    rw [List.sum_cons] at hs
    have h1 := h0 a (by simp)
    have h2 : 0 ≤ l.sum := List.sum_nonneg (fun x hx => h0 x (by simp [hx]))
    intro x hx
    rcases List.mem_cons.1 hx with rfl | hx
    · linarith
    · exact ih (fun y hy => h0 y (by simp [hy])) (by linarith) x hx

/-- If one of the samples leads to a model that fits at least `m` of the data without error, the model returned fits
all of its own inliers, at least `m`, without error. -/
theorem ransac_exact [IsStrictOrderedRing E] {P : Params A B H E} {sched} (hsched : ∀ l, (sched l).Perm l)
    {m p1 p2 draws rest best samples} (hm : 1 ≤ m) (hnn : ∀ h a b, 0 ≤ P.err h a b)
    (hd : Drawn P p1 draws samples) {s} (hs : s ∈ samples) {h' e' inl'} (hc : Candidate P m p1 p2 s h' e' inl')
    (hex : ∀ p ∈ inl', P.err h' p.1 p.2 = 0)
    (h : attempt P sched m p1 p2 draws = some (some best, rest)) :
    ∃ model, best = some model ∧ ∃ inl : List (A × B), inl.Sublist (p1.zip p2) ∧ m ≤ inl.length ∧
      ∀ p ∈ inl, P.err model p.1 p.2 = 0 := by
  obtain ⟨_, samples', hd', t, ht, model, e, inl, h1, h2, h3, h4⟩ := ransac_best hsched hm h
  have : samples' = samples := by
    obtain ⟨a, l, d, e1, e2⟩ := hd
    obtain ⟨a', l', d', e1', e2'⟩ := hd'
    rw [e1] at e1'
    cases e1'
    rw [e2] at e2'
    cases e2'
    rfl
  subst this
  have hle := h4 s hs _ _ _ hc
  obtain ⟨h0, _, g1, g2, g3, g4⟩ := h2
  refine ⟨model, h1, inl, by rw [g1]; exact List.filter_sublist, g2, ?_⟩
  have he' : e' = 0 := by
    obtain ⟨_, _, _, _, _, k⟩ := hc
    rw [k]
    have : (inl'.map (fun p => P.err h' p.1 p.2)).sum = 0 := by
      rw [List.map_congr_left (g := fun _ => (0 : E)) hex]
      simp
    rw [this, zero_div]
  have hpos : (0 : E) < inl.length := by
    have : 0 < inl.length := by omega
    exact_mod_cast this
  rw [he', g4, div_le_iff₀ hpos, zero_mul] at hle
  intro p hp
  exact all_zero_of_sum (l := inl.map (fun p => P.err model p.1 p.2))
    (by intro x hx; obtain ⟨q, _, rfl⟩ := List.mem_map.1 hx; exact hnn _ _ _) hle _ (List.mem_map.2 ⟨p, hp, rfl⟩)

/-! ### Attempts -/

theorem reduceMin_eq {m : Int} (hm : 0 ≤ m) : reduceMin m = 2 * m / 3 := by
  unfold reduceMin
  exact Int.tdiv_eq_ediv_of_nonneg (by omega)

theorem attempts_some {P : Params A B H E} {sched p1 p2} : ∀ (k : Nat) {m : Int} {draws best m' rest},
    attempts P sched p1 p2 k m draws = some (some best, m', rest) →
    ∃ j, j < k ∧ m' = reduceMin^[j] m ∧ (j = 0 ∨ (P.reduce = true ∧ 2 ≤ m')) ∧
      ∃ draws' i, attempt P (sched i) m' p1 p2 draws' = some (some best, rest)
  | 0, m, draws, best, m', rest, h => by cases h
  | k + 1, m, draws, best, m', rest, h => by
    unfold attempts at h
    cases ha : attempt P (sched k) m p1 p2 draws with
    | none => rw [ha] at h; cases h
    | some o =>
      obtain ⟨r, d⟩ := o
      rw [ha] at h
      simp only [Option.bind_eq_bind, Option.bind_some] at h
      cases r with
      | some b =>
        cases h
        exact ⟨0, by omega, rfl, Or.inl rfl, draws, k, ha⟩
      | none =>
        simp only at h
        split_ifs at h with h1 h2
        · cases h
        · cases h
        obtain ⟨j, h3, h4, h5, h6⟩ := attempts_some k h
        refine ⟨j + 1, by omega, h4, Or.inr ⟨by simpa using h1, ?_⟩, h6⟩
        rcases h5 with h5 | h5
        · subst h5
          rw [h4]
          simp only [Function.iterate_zero, id_eq]
          omega
        · exact h5.2

/-- What the functor returns: the best candidate of one of up to ten attempts, with the required number of inliers
reduced by a third for each attempt before, and this only if the reduction is allowed. -/
theorem ransac_result {P : Params A B H E} {sched} (hsched : ∀ k l, (sched k l).Perm l) {m : Int} (hm : 1 ≤ m)
    {p1 p2 draws best m' rest} (h : ransac P sched m p1 p2 draws = some (some best, m', rest)) :
    (∃ j, j < 10 ∧ m' = reduceMin^[j] m ∧ (j = 0 ∨ (P.reduce = true ∧ 2 ≤ m'))) ∧ Usable P m' p1 p2 ∧
      ∃ draws' samples, Drawn P p1 draws' samples ∧ ∃ s ∈ samples, ∃ model e inl,
      best = some model ∧ Candidate P m' p1 p2 s model e inl ∧
      ∀ s' ∈ samples, ∀ model' e' inl', Candidate P m' p1 p2 s' model' e' inl' → e ≤ e' := by
  obtain ⟨j, h1, h2, h3, draws', i, h4⟩ := attempts_some 10 h
  have hm' : 1 ≤ m' := by
    rcases h3 with h3 | h3
    · subst h3; rw [h2]; exact hm
    · omega
  obtain ⟨a, samples, b, s, hs, model, e, inl, c1, c2, _, c4⟩ := ransac_best (hsched i) hm' h4
  exact ⟨⟨j, h1, h2, h3⟩, a, draws', samples, b, s, hs, model, e, inl, c1, c2, c4⟩

theorem attempts_none {P : Params A B H E} {sched p1 p2} : ∀ (k : Nat) {m : Int} {draws m' rest},
    attempts P sched p1 p2 k m draws = some (none, m', rest) →
    ∃ n, n ≤ k ∧ (∀ j < n, ∃ draws' i rest', attempt P (sched i) (reduceMin^[j] m) p1 p2 draws' = some (none, rest')) ∧
      ((n = k) ∨ (n = 1 ∧ P.reduce = false) ∨ (P.reduce = true ∧ reduceMin^[n] m < 2))
  | 0, m, draws, m', rest, h => ⟨0, le_refl _, fun j hj => absurd hj (by omega), Or.inl rfl⟩
  | k + 1, m, draws, m', rest, h => by
    unfold attempts at h
    cases ha : attempt P (sched k) m p1 p2 draws with
    | none => rw [ha] at h; cases h
    | some o =>
      obtain ⟨r, d⟩ := o
      rw [ha] at h
      simp only [Option.bind_eq_bind, Option.bind_some] at h
      cases r with
      | some b => cases h
      | none =>
        simp only at h
        have h0 : ∀ j < 1, ∃ draws' i rest', attempt P (sched i) (reduceMin^[j] m) p1 p2 draws' = some (none, rest') := by
          intro j hj
          have : j = 0 := by omega
          subst this
          exact ⟨draws, k, d, ha⟩
        split_ifs at h with h1 h2
        · exact ⟨1, by omega, h0, Or.inr (Or.inl ⟨rfl, h1⟩)⟩
        · exact ⟨1, by omega, h0, Or.inr (Or.inr ⟨by simpa using h1, h2⟩)⟩
        · obtain ⟨n, g1, g2, g3⟩ := attempts_none k h
          refine ⟨n + 1, by omega, ?_, ?_⟩
          · intro j hj
            cases j with
            | zero => exact ⟨draws, k, d, ha⟩
            | succ j => exact g2 j (by omega)
          · rcases g3 with g3 | ⟨_, g3⟩ | g3
            · exact Or.inl (by omega)
            · exact absurd g3 h1
            · exact Or.inr (Or.inr g3)

/-- It throws only if every attempt failed, and all allowed ones were made: ten, or one if no reduction is allowed, or
until fewer than two inliers would be asked for. -/
theorem ransac_throws {P : Params A B H E} {sched} {m : Int} {p1 p2 draws m' rest}
    (h : ransac P sched m p1 p2 draws = some (none, m', rest)) :
    ∃ n, n ≤ 10 ∧ (∀ j < n, ∃ draws' i rest', attempt P (sched i) (reduceMin^[j] m) p1 p2 draws' = some (none, rest')) ∧
      (n = 10 ∨ (n = 1 ∧ P.reduce = false) ∨ (P.reduce = true ∧ reduceMin^[n] m < 2)) :=
  attempts_none 10 h

/-! ### What does not hold, and cases that meet the hypotheses -/

/-- Fitting a shift to pairs of numbers: the shift of a sample of one, then the mean shift of the inliers. -/
def shift (iters : Nat) (thr : ℚ) (reduce : Bool) : Params ℚ ℚ ℚ ℚ :=
  ⟨fun a b => b.head?.getD 0 - a.head?.getD 0, fun a b _ => (b.sum - a.sum) / a.length,
    fun h a b => |b - (a + h)|, fun _ => 1, iters, thr, reduce, 1000000, 1⟩

/-- Two models with the same mean error: the result depends on the order in which the threads finish. -/
theorem ransac_ties : ∃ (sched sched' : List (List Nat) → List (List Nat)), (∀ l, (sched l).Perm l) ∧
    (∀ l, (sched' l).Perm l) ∧ attempt (shift 2 (1 / 2) false) sched 1 [0, 10] [1, 12] [0, 1] = some (some (some 1), []) ∧
    attempt (shift 2 (1 / 2) false) sched' 1 [0, 10] [1, 12] [0, 1] = some (some (some 2), []) := by
  refine ⟨id, List.reverse, fun l => List.Perm.refl _, fun l => List.reverse_perm l, ?_, ?_⟩ <;> decide +kernel

/-- The model returned, fitted again to the inliers of a sample, can have fewer inliers than asked for. -/
theorem ransac_fewer_inliers : ∃ h, attempt (shift 1 10 false) id 6 [0, 0, 0, 0, 0, 0] [0, -9, 9, 9, 9, 9] [0] =
    some (some (some h), []) ∧ (inliers (shift 1 10 false) h [0, 0, 0, 0, 0, 0] [0, -9, 9, 9, 9, 9]).length = 5 := by
  refine ⟨9 / 2, ?_, ?_⟩ <;> decide +kernel

/-- The required number of inliers stays reduced: the object was made for three inliers and asks for two after a call. -/
theorem ransac_stays_reduced : ransac (shift 1 1 true) (fun _ => id) 3 [0, 0, 0] [5, 5, 9] [0, 0] =
    some (some (some 5), 2, []) := by decide +kernel

example : Usable (shift 2 (1 / 2) false) 1 [0, 10] [1, 12] := ⟨rfl, 0, [10], rfl, by decide, by decide⟩
example : ∃ samples, Drawn (shift 2 (1 / 2) false) [0, 10] [0, 1] samples := ⟨_, 0, [10], [], rfl, rfl⟩
example (h : ℚ) (a b : ℚ) : 0 ≤ (shift 2 (1 / 2) false).err h a b := abs_nonneg _

end Verif.Ransac
