import Verif.Stereo.SGMSelect

/-! Further theorems about semi-global matching: both compiled versions agree, the default penalties are in range, and what fails. -/

namespace VW.SGM

/-! ### The two versions of `evaluate_path` -/

def Matcher.withSse (M : Matcher) (b : Bool) : Matcher := { M with P := { M.P with sse := b } }

theorem combine_agree (P : Params) (hP : P.ok) (prev cur : Range) (hprev : prev.inside P) (prior : List Nat) (g loc : Nat) (d : Pt)
    (hcur : cur.inside P) (hd : cur.has d) (hl : loc ≤ 255) (hpri : ∀ d, prev.has d → costOf prev prior d ≤ P.bad) :
    let st := insertPrior P prev prior fun _ => P.bad
    combineSat P st.1 st.2 (P.p2Mod g) loc (P.disp d.1 d.2) = combineWrap P st.1 st.2 (P.p2Mod g) loc (P.disp d.1 d.2) := by
  intro st
  obtain ⟨i1, i2, i3, i4, i5⟩ := insert_spec P prev hprev prior (fun _ => P.bad)
  have hbufle : ∀ a, st.1 a ≤ P.bad := by
    intro a
    by_cases ha : a ∈ prev.fulls P
    · rw [fulls_eq, List.mem_map] at ha
      obtain ⟨e, he, rfl⟩ := ha
      have he := (mem_disps prev e).1 he
      show (insertPrior P prev prior fun _ => P.bad).1 _ ≤ _
      rw [i1 e he]
      exact hpri e he
    · have hnd : (prev.fulls P).Nodup := by
        rw [fulls_eq]
        refine List.Nodup.map_on ?_ (disps_nodup prev)
        intro x hx y hy h
        have h1 := hprev x ((mem_disps prev x).1 hx)
        have h2 := hprev y ((mem_disps prev y).1 hy)
        exact disp_inj P ⟨h1.1, h1.2.1⟩ ⟨h2.1, h2.2.1⟩ h
      have := (insert_fold prior (prev.fulls P) hnd (fun _ => P.bad) P.bad).2.1 a ha
      show (insertPrior P prev prior fun _ => P.bad).1 _ ≤ _
      unfold insertPrior
      rw [this]
  obtain ⟨low, _, _, _, l6, l7⟩ := combine_spec P hP st.1 st.2 (P.p2Mod g) loc d (hcur d hd) hbufle i3 (p2Mod_bounds P g hP.1).2 hl (by
    intro e he
    by_cases h : prev.has e
    · show (insertPrior P prev prior fun _ => P.bad).2 ≤ (insertPrior P prev prior fun _ => P.bad).1 _
      rw [i1 e h]; exact i4 e h
    · show (insertPrior P prev prior fun _ => P.bad).2 ≤ (insertPrior P prev prior fun _ => P.bad).1 _
      rw [i2 e he.1 he.2.1 h]; exact i3)
  omega

theorem adjacent_sse (P : Params) (b : Bool) : ({ P with sse := b } : Params).adjacent = P.adjacent := rfl

theorem combineWrap_sse (P : Params) (b : Bool) (buf : Buf) (mp p2m loc : Nat) (full : Int) :
    combineWrap { P with sse := b } buf mp p2m loc full = combineWrap P buf mp p2m loc full := by
  unfold combineWrap
  rw [adjacent_sse]

theorem combineSat_sse (P : Params) (b : Bool) (buf : Buf) (mp p2m loc : Nat) (full : Int) :
    combineSat { P with sse := b } buf mp p2m loc full = combineSat P buf mp p2m loc full := by
  unfold combineSat
  rw [adjacent_sse]

theorem fulls_sse (P : Params) (c : Bool) (b : Range) : b.fulls { P with sse := c } = b.fulls P := rfl

theorem insertPrior_sse (P : Params) (c : Bool) (b : Range) (prior : List Nat) (buf : Buf) :
    insertPrior { P with sse := c } b prior buf = insertPrior P b prior buf := by
  unfold insertPrior
  rw [fulls_sse]
  rfl

theorem p2Mod_sse (P : Params) (c : Bool) (g : Nat) : ({ P with sse := c } : Params).p2Mod g = P.p2Mod g := rfl

theorem evaluate_agree (P : Params) (hP : P.ok) (cur prev : Range) (hcur : cur.inside P) (hprev : prev.inside P) (prior loc : List Nat) (g : Nat)
    (hloc : ∀ d, cur.has d → costOf cur loc d ≤ 255) (hpri : ∀ d, prev.has d → costOf prev prior d ≤ P.bad) :
    (evaluate { P with sse := true } cur prev prior loc g fun _ => P.bad).1 = (evaluate { P with sse := false } cur prev prior loc g fun _ => P.bad).1 := by
  unfold evaluate
  dsimp only
  rw [fulls_sse, fulls_sse, insertPrior_sse, insertPrior_sse, p2Mod_sse, p2Mod_sse]
  apply List.map_congr_left
  intro x hx
  rw [if_pos rfl, if_neg (by simp), combineSat_sse, combineWrap_sse]
  rw [List.mem_zipIdx_iff_getElem?, fulls_eq, List.getElem?_map] at hx
  rcases hg : cur.disps[x.2]? with _ | e
  · rw [hg] at hx
    cases hx
  · rw [hg] at hx
    have hx : P.disp e.1 e.2 = x.1 := Option.some.inj hx
    have he : cur.has e := (mem_disps cur e).1 (List.mem_of_getElem? hg)
    have hi : x.2 < cur.disps.length := by
      rcases Nat.lt_or_ge x.2 cur.disps.length with h | h
      · exact h
      · rw [List.getElem?_eq_none h] at hg
        cases hg
    have hl : at' loc x.2 ≤ 255 := by
      have := hloc e he
      rw [List.getElem?_eq_getElem hi] at hg
      rw [← Option.some.inj hg, costOf_getElem] at this
      exact this
    rw [← hx]
    exact combine_agree P hP prev cur hprev prior g _ e hcur he hl hpri

/-- **The version with SSE instructions and the one without compute the same costs.** -/
theorem sse_agrees (M : Matcher) (hM : M.Ok) (d : Dir) (s : Pt) (k : Nat) : (pass (M.withSse true) d s k).1 = (pass (M.withSse false) d s k).1 := by
  have hM1 : (M.withSse true).Ok := ⟨hM.params, hM.inside, hM.costs⟩
  induction k with
  | zero => rfl
  | succ k ih =>
    rw [pass_succ, pass_succ, ← ih]
    exact evaluate_agree M.P hM.params (M.range (along d s (k + 1))) (M.range (along d s k)) (hM.inside _) (hM.inside _)
      (pass (M.withSse true) d s k).1 (M.cost (along d s (k + 1))) (gradientOf (M.image (along d s (k + 1))) (M.image (along d s k))) (hM.costs _)
      (fun e he => (pathCost_bound (M.withSse true) hM1 d s k e he).2.2)

/-! ### Default penalties -/

/-- The default penalties are in order, fit the path costs, and fit the sum of the eight directions. -/
theorem defaults_ok (t : CostType) (kernel : Nat) (P : Params) (h1 : P.p1 = defaultP1 t kernel) (h2 : P.p2 = defaultP2 t kernel) :
    P.ok ∧ P.p2 ≤ 7936 := by
  unfold Params.ok
  rw [h1, h2]
  cases t <;> unfold defaultP1 defaultP2 <;> dsimp only <;> repeat' split
  all_goals omega

/-! ### A case -/

/-- Three pixels, disparities 0 to 2; the second pixel alone would take 2. -/
def exLine : Matcher where
  P := ⟨0, 0, 2, 0, 3, 22, true⟩
  width := 3
  height := 1
  range := fun _ => ⟨0, 0, 2, 0⟩
  cost := fun q => if q.1 = 1 then [9, 8, 4] else [0, 6, 9]
  image := fun q => if q.1 = 2 then 7 else 5

theorem exLine_ok : exLine.Ok := by
  refine ⟨by unfold Params.ok; decide, fun q d hd => hd, ?_⟩
  intro q d hd
  have hr : exLine.range q = ⟨0, 0, 2, 0⟩ := rfl
  rw [hr] at hd ⊢
  have hd' := (mem_disps _ d).2 hd
  have : (⟨0, 0, 2, 0⟩ : Range).disps = [(0, 0), (1, 0), (2, 0)] := by decide
  rw [this] at hd'
  simp only [List.mem_cons, List.not_mem_nil, or_false] at hd'
  show costOf ⟨0, 0, 2, 0⟩ (if q.1 = 1 then [9, 8, 4] else [0, 6, 9]) d ≤ 255
  rcases hd' with rfl | rfl | rfl <;> split <;> decide

example : (List.range 3).map (fun k => (pass exLine .R (0, 0) k).1) = [[0, 6, 9], [9, 11, 13], [0, 8, 13]] := by decide +kernel

-- the hypotheses of `path_optimal_nested` hold for the whole line
example : ∃ K, ∀ e, (exLine.range (along .R (0, 0) 2)).has e →
    (∃ f, admissible exLine .R (0, 0) f 0 2 ∧ f 2 = e ∧ energy exLine .R (0, 0) f 0 2 = pathCost exLine .R (0, 0) 2 e + K) ∧
    (∀ f, admissible exLine .R (0, 0) f 0 2 → f 2 = e → pathCost exLine .R (0, 0) 2 e + K ≤ energy exLine .R (0, 0) f 0 2) :=
  path_optimal_nested exLine exLine_ok .R (0, 0) 0 2 (Or.inl rfl) ⟨(0, 0), by decide⟩ (fun _ _ _ _ h => h)

/-- A pixel without disparities, then two with: the stretch starts after it. -/
def exGap : Matcher := { exLine with range := fun q => if q.1 = 0 then zeroRange else ⟨0, 0, 2, 0⟩, cost := fun q => if q.1 = 0 then [] else [7, 0, 9] }

theorem exGap_ok : exGap.Ok := by
  refine ⟨by unfold Params.ok; decide, ?_, ?_⟩
  · intro q d hd
    have hr : exGap.range q = if q.1 = 0 then zeroRange else ⟨0, 0, 2, 0⟩ := rfl
    rw [hr] at hd
    split at hd
    · unfold Range.has zeroRange at hd
      dsimp only at hd
      omega
    · exact hd
  · intro q d hd
    have hr : exGap.range q = if q.1 = 0 then zeroRange else ⟨0, 0, 2, 0⟩ := rfl
    have hc : exGap.cost q = if q.1 = 0 then [] else [7, 0, 9] := rfl
    rw [hr] at hd
    rw [hr, hc]
    by_cases h : q.1 = 0
    · rw [if_pos h] at hd
      unfold Range.has zeroRange at hd
      dsimp only at hd
      omega
    · rw [if_neg h] at hd
      rw [if_neg h, if_neg h]
      have hd' := (mem_disps _ d).2 hd
      have : (⟨0, 0, 2, 0⟩ : Range).disps = [(0, 0), (1, 0), (2, 0)] := by decide
      rw [this] at hd'
      simp only [List.mem_cons, List.not_mem_nil, or_false] at hd'
      rcases hd' with rfl | rfl | rfl <;> decide

example : (List.range 3).map (fun k => (pass exGap .R (0, 0) k).1) = [[], [7, 0, 9], [10, 0, 12]] := by decide +kernel

example : ∃ K, ∀ e, (exGap.range (along .R (0, 0) 2)).has e →
    (∃ f, admissible exGap .R (0, 0) f 1 1 ∧ f 2 = e ∧ energy exGap .R (0, 0) f 1 1 = pathCost exGap .R (0, 0) 2 e + K) ∧
    (∀ f, admissible exGap .R (0, 0) f 1 1 → f 2 = e → pathCost exGap .R (0, 0) 2 e + K ≤ energy exGap .R (0, 0) f 1 1) :=
  path_optimal_nested exGap exGap_ok .R (0, 0) 1 1 (Or.inr (by
    intro e he
    unfold Range.has at he
    have hr : exGap.range (along .R (0, 0) (1 - 1)) = zeroRange := by decide
    rw [hr] at he
    unfold zeroRange at he
    dsimp only at he
    omega)) ⟨(0, 0), by decide⟩ (by
    intro j h1 h2 e he
    have : j = 1 := by omega
    subst this
    exact he)

/-! ### What fails -/

/-- Search ranges that change along the line. -/
def exVary : Matcher where
  P := ⟨0, 0, 20, 0, 3, 250, true⟩
  width := 3
  height := 1
  range := fun q => if q.1 = 0 then ⟨0, 0, 0, 0⟩ else if q.1 = 1 then ⟨10, 0, 10, 0⟩ else ⟨10, 0, 20, 0⟩
  cost := fun q => if q.1 = 0 then [0] else if q.1 = 1 then [255] else [0, 0, 0, 0, 0, 0, 0, 0, 0, 0, 0]
  image := fun _ => 0

theorem exVary_ok : exVary.Ok := by
  have hr : ∀ q, exVary.range q = if q.1 = 0 then ⟨0, 0, 0, 0⟩ else if q.1 = 1 then ⟨10, 0, 10, 0⟩ else ⟨10, 0, 20, 0⟩ := fun _ => rfl
  have hc : ∀ q, exVary.cost q = if q.1 = 0 then [0] else if q.1 = 1 then [255] else [0, 0, 0, 0, 0, 0, 0, 0, 0, 0, 0] := fun _ => rfl
  refine ⟨by unfold Params.ok; decide, ?_, ?_⟩
  · intro q d hd
    rw [hr] at hd
    unfold Range.has at hd
    show (0 : Int) ≤ d.1 ∧ d.1 ≤ 20 ∧ (0 : Int) ≤ d.2 ∧ d.2 ≤ 0
    split at hd
    · dsimp only at hd; omega
    · split at hd <;> dsimp only at hd <;> omega
  · intro q d _
    have : ∀ x ∈ exVary.cost q, x ≤ 255 := by
      rw [hc]
      split
      · decide
      · split <;> decide
    unfold costOf
    rw [List.getD_eq_getElem?_getD]
    rcases hg : (exVary.cost q)[(exVary.range q).disps.idxOf d]? with _ | x
    · simp
    · exact this x (List.mem_of_getElem? hg)

/-- **With changing search ranges the costs need not be least energies.** The value that stands for a missing disparity is not larger than
every path cost; after the expensive second pixel a jump of ten disparities is free. The least energies of staying at 10 and of jumping to
20 differ by 250, the costs do not differ. -/
theorem path_not_optimal : ¬ ∃ K, ∀ e, (exVary.range (along .R (0, 0) 2)).has e →
    (∃ f, admissible exVary .R (0, 0) f 0 2 ∧ f 2 = e ∧ energy exVary .R (0, 0) f 0 2 = pathCost exVary .R (0, 0) 2 e + K) ∧
    (∀ f, admissible exVary .R (0, 0) f 0 2 → f 2 = e → pathCost exVary .R (0, 0) 2 e + K ≤ energy exVary .R (0, 0) f 0 2) := by
  rintro ⟨K, h⟩
  have e1 : pathCost exVary .R (0, 0) 2 (10, 0) = 0 := by decide +kernel
  have e2 : pathCost exVary .R (0, 0) 2 (20, 0) = 0 := by decide +kernel
  have h1 := (h (10, 0) (by decide)).2 (fun j => if j = 0 then (0, 0) else (10, 0)) (by
    intro j _ hj
    have : j = 0 ∨ j = 1 ∨ j = 2 := by omega
    rcases this with rfl | rfl | rfl <;> decide) rfl
  rw [e1] at h1
  have hE : energy exVary .R (0, 0) (fun j => if j = 0 then (0, 0) else (10, 0)) 0 2 = 505 := by decide +kernel
  rw [hE] at h1
  obtain ⟨f, hf, hfe, hE2⟩ := (h (20, 0) (by decide)).1
  rw [e2] at hE2
  -- the first two pixels have one disparity each
  have f0 : f 0 = (0, 0) := by
    have := (mem_disps _ _).2 (hf 0 (by omega) (by omega))
    have hr : (exVary.range (along .R (0, 0) 0)).disps = [(0, 0)] := by decide
    rw [hr] at this
    simpa using this
  have f1 : f 1 = (10, 0) := by
    have := (mem_disps _ _).2 (hf 1 (by omega) (by omega))
    have hr : (exVary.range (along .R (0, 0) 1)).disps = [(10, 0)] := by decide
    rw [hr] at this
    simpa using this
  have : energy exVary .R (0, 0) f 0 2 = 755 := by
    simp only [energy, Nat.zero_add]
    rw [f0, f1, hfe]
    decide +kernel
  omega

/-- Three by three pixels; only the middle has more than one disparity; p2 is 8000. -/
def exOver : Matcher where
  P := ⟨0, 0, 2, 0, 3, 8000, true⟩
  width := 3
  height := 3
  range := fun q => if q = (1, 1) then ⟨0, 0, 2, 0⟩ else ⟨0, 0, 0, 0⟩
  cost := fun q => if q = (1, 1) then [0, 0, 255] else [0]
  image := fun _ => 0

/-- **Beyond 7936 the sum of the directions can overflow**: eight path costs of 8255 are added up to 504. -/
theorem accum_overflow : ((allAdds exOver).foldl Accum.add fun _ _ => 0) (1, 1) 2 = 504 ∧
    ∀ d : Dir, ∃ s, s ∈ starts 3 3 d ∧ along d s 1 = (1, 1) ∧ pathCost exOver d s 1 (2, 0) = 8255 := by
  refine ⟨by decide +kernel, ?_⟩
  intro d
  cases d
  · exact ⟨(2, 2), by decide +kernel, by decide, by decide +kernel⟩
  · exact ⟨(1, 2), by decide +kernel, by decide, by decide +kernel⟩
  · exact ⟨(0, 2), by decide +kernel, by decide, by decide +kernel⟩
  · exact ⟨(2, 1), by decide +kernel, by decide, by decide +kernel⟩
  · exact ⟨(0, 1), by decide +kernel, by decide, by decide +kernel⟩
  · exact ⟨(2, 0), by decide +kernel, by decide, by decide +kernel⟩
  · exact ⟨(1, 0), by decide +kernel, by decide, by decide +kernel⟩
  · exact ⟨(0, 0), by decide +kernel, by decide, by decide +kernel⟩

-- the hypotheses of `accum_sum` hold for the case above
example : ∃ (s : Dir → Pt) (k : Dir → Nat), (∀ d, s d ∈ starts 3 1 d ∧ along d (s d) (k d) = (1, 0)) ∧
    ∀ e, (exLine.range (1, 0)).has e → ((allAdds exLine).foldl Accum.add fun _ _ => 0) (1, 0) ((exLine.range (1, 0)).disps.idxOf e) =
      (dirs.map fun d => pathCost exLine d (s d) (k d) e).sum :=
  accum_sum exLine exLine_ok (by decide) (by decide) (by decide) _ (List.Perm.refl _) (1, 0) (by unfold inImage; decide)

example : (dirPixels 3 2 .BL) = [(0, 0), (1, 0), (0, 1), (2, 0), (1, 1), (2, 1)] := by decide

/-- **A tie can be decided for the worst disparity.** Of the costs 0, 5, 0 the middle one is chosen. -/
theorem tie_picks_worst : choose ⟨0, 0, 2, 0⟩ [0, 5, 0] = some (1, 0) := by decide +kernel

example : choose ⟨-1, 2, 1, 3⟩ [9, 8, 7, 9, 2, 9] = some (0, 3) :=
  choose_best _ _ (by decide) _ (by decide) (by
    intro e' he' hne
    have h := (mem_disps _ e').2 he'
    have hd : (⟨-1, 2, 1, 3⟩ : Range).disps = [(-1, 2), (0, 2), (1, 2), (-1, 3), (0, 3), (1, 3)] := by decide
    rw [hd] at h
    simp only [List.mem_cons, List.not_mem_nil, or_false] at h
    rcases h with rfl | rfl | rfl | rfl | rfl | rfl <;> first | exact absurd rfl hne | decide)

/-- **A disparity out of reach of the search range** gives a negative number of disparities. -/
theorem prior_out_of_reach : ((priorRange ⟨0, 0, 4, 0, 3, 250, true⟩ 4 4 (some (10, 0))).1).num = -11 := by decide

example : (priorRange ⟨-20, -2, 20, 2, 3, 250, true⟩ 4 4 (some (3, 1))).1 = ⟨2, -2, 10, 2⟩ := by decide

end VW.SGM
