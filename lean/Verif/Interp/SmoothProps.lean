import Verif.Interp.LagrangeProps

/-
C107: weighted means of positions, and times of image lines.
-/

namespace Verif.Camera.Interp

set_option linter.unusedSectionVars false

variable {K : Type} [Field K] [LinearOrder K] [IsStrictOrderedRing K] [FloorRing K]

/-- The weight of a sample before scaling: the exponential of minus sigma times the square of the distance in steps. -/
def raw (exp : K → K) (t0 dt t sigma : K) (i : Nat) : K := exp (-(sigma * (((knot t0 dt i - t) / dt) * ((knot t0 dt i - t) / dt))))

/-- What is asked of std::sort: the same elements, the greatest first. -/
def Sorts (sort : List (K × Nat) → List (K × Nat)) : Prop := ∀ l, (sort l).Perm l ∧ (sort l).Pairwise (fun a b => b.1 ≤ a.1)

theorem foldl_map_sum (l : List (K × Nat)) (a : K) : l.foldl (fun s w => s + w.1) a = a + (l.map Prod.fst).sum := by
  induction l generalizing a with
  | nil => simp
  | cons b l ih => simp only [List.foldl_cons, List.map_cons, List.sum_cons]; rw [ih]; ring

theorem raw_eq (exp : K → K) (t0 dt t sigma : K) (n : Nat) :
    (List.range n).map (fun (i : Nat) => (exp (-sigma * ((t0 + dt * (i : K) - t) / dt) * ((t0 + dt * (i : K) - t) / dt)), i))
      = (List.range n).map (fun i => (raw exp t0 dt t sigma i, i)) := by
  refine List.map_congr_left fun i _ => ?_
  unfold raw knot
  congr 2
  ring

theorem take_props (exp : K → K) (hpos : ∀ x, 0 < exp x) (sort : List (K × Nat) → List (K × Nat)) (hs : Sorts sort) (t0 dt t : K) (n num : Nat) (sigma : K)
    (V : List (K × Nat)) (hV : V = (sort ((List.range n).map (fun i => (raw exp t0 dt t sigma i, i)))).take (min n num)) :
    V.length = min n num ∧ (V.map Prod.snd).Nodup ∧ (∀ w ∈ V, w.2 < n ∧ w.1 = raw exp t0 dt t sigma w.2 ∧ 0 < w.1) ∧
    (∀ w ∈ V, ∀ j, j < n → j ∉ V.map Prod.snd → raw exp t0 dt t sigma j ≤ w.1) ∧ (0 < min n num → 0 < (V.map Prod.fst).sum) := by
  obtain ⟨hp, hd⟩ := hs ((List.range n).map (fun i => (raw exp t0 dt t sigma i, i)))
  set L := (List.range n).map (fun i => (raw exp t0 dt t sigma i, i)) with hL
  have hlen : (sort L).length = n := by rw [hp.length_eq, hL]; simp
  have hmem : ∀ w ∈ V, w ∈ L := by
    intro w hw
    rw [hV] at hw
    exact hp.subset (List.mem_of_mem_take hw)
  have hw : ∀ w ∈ V, w.2 < n ∧ w.1 = raw exp t0 dt t sigma w.2 ∧ 0 < w.1 := by
    intro w hw
    have := hmem w hw
    rw [hL, List.mem_map] at this
    obtain ⟨i, hi, rfl⟩ := this
    exact ⟨List.mem_range.1 hi, rfl, hpos _⟩
  have hl : V.length = min n num := by rw [hV, List.length_take, hlen]; omega
  refine ⟨hl, ?_, hw, ?_, ?_⟩
  · have h1 : ((sort L).map Prod.snd).Nodup := by
      have : ((sort L).map Prod.snd).Perm (L.map Prod.snd) := hp.map _
      rw [this.nodup_iff]
      have : L.map Prod.snd = List.range n := by rw [hL, List.map_map]; simp [Function.comp_def]
      rw [this]; exact List.nodup_range
    rw [hV, List.map_take]
    exact h1.sublist (List.take_sublist _ _)
  · intro w hw j hj hn
    have hjL : (raw exp t0 dt t sigma j, j) ∈ sort L := hp.symm.subset (by rw [hL]; exact List.mem_map.2 ⟨j, List.mem_range.2 hj, rfl⟩)
    rw [← List.take_append_drop (min n num) (sort L), List.mem_append, ← hV] at hjL
    rcases hjL with h | h
    · exact absurd (List.mem_map.2 ⟨_, h, rfl⟩) hn
    · have := hd
      rw [← List.take_append_drop (min n num) (sort L), List.pairwise_append, ← hV] at this
      exact this.2.2 w hw _ h
  · intro h0
    have : V ≠ [] := by rintro rfl; simp at hl; omega
    refine List.sum_pos _ ?_ (by simpa using this)
    intro x hx
    obtain ⟨w, hw', rfl⟩ := List.mem_map.1 hx
    exact (hw w hw').2.2

theorem sum_div (l : List (K × Nat)) (s : K) : ((l.map (fun w => (w.1 / s, w.2))).map Prod.fst).sum = (l.map Prod.fst).sum / s := by
  induction l with
  | nil => simp
  | cons b l ih => simp only [List.map_cons, List.sum_cons]; rw [ih]; ring

/-- **C107.** The weights at a time, for a positive step and sigma, an exponential that is positive and increasing, and any
sorting: as many as asked for, at most one for each sample; positive, adding up to one, in proportion to the exponential of
minus sigma times the square of the distance in steps; and they belong to the nearest samples. -/
theorem weights_spec (exp : K → K) (hpos : ∀ x, 0 < exp x) (hmono : StrictMono exp) (sort : List (K × Nat) → List (K × Nat)) (hs : Sorts sort)
    (t0 dt t : K) (n num : Nat) (sigma : K) (hsig : 0 < sigma) (hdt : 0 < dt) (hn : 0 < n) (hnum : 0 < num) :
    let W := weights exp sort t0 dt t n num sigma
    W.length = min n num ∧ (W.map Prod.snd).Nodup ∧ (∀ w ∈ W, w.2 < n ∧ 0 < w.1) ∧ (W.map Prod.fst).sum = 1 ∧
    (∃ S : K, 0 < S ∧ ∀ w ∈ W, w.1 * S = raw exp t0 dt t sigma w.2) ∧
    (∀ w ∈ W, ∀ j, j < n → j ∉ W.map Prod.snd → |knot t0 dt w.2 - t| ≤ |knot t0 dt j - t|) := by
  obtain ⟨h1, h2, h3, h4, h5⟩ := take_props exp hpos sort hs t0 dt t n num sigma _ rfl
  intro W
  have hW : W = ((sort ((List.range n).map (fun i => (raw exp t0 dt t sigma i, i)))).take (min n num)).map (fun w =>
      (w.1 / (((sort ((List.range n).map (fun i => (raw exp t0 dt t sigma i, i)))).take (min n num)).map Prod.fst).sum, w.2)) := by
    show weights exp sort t0 dt t n num sigma = _
    unfold weights
    simp only
    rw [raw_eq, foldl_map_sum, zero_add]
  set V := (sort ((List.range n).map (fun i => (raw exp t0 dt t sigma i, i)))).take (min n num) with hV
  have hS := h5 (by omega)
  set S := (V.map Prod.fst).sum with hSd
  have hsnd : W.map Prod.snd = V.map Prod.snd := by rw [hW, List.map_map]; rfl
  rw [hsnd]
  have hmem : ∀ w ∈ W, ∃ v ∈ V, w = (v.1 / S, v.2) := by
    intro w hw
    rw [hW] at hw
    obtain ⟨v, hv, rfl⟩ := List.mem_map.1 hw
    exact ⟨v, hv, rfl⟩
  refine ⟨by rw [hW, List.length_map]; exact h1, h2, ?_, ?_, ⟨S, hS, ?_⟩, ?_⟩
  · intro w hw
    obtain ⟨v, hv, rfl⟩ := hmem w hw
    exact ⟨(h3 v hv).1, div_pos (h3 v hv).2.2 hS⟩
  · rw [hW, sum_div, ← hSd, div_self hS.ne']
  · intro w hw
    obtain ⟨v, hv, rfl⟩ := hmem w hw
    simp only
    rw [div_mul_cancel₀ _ hS.ne']
    exact (h3 v hv).2.1
  · intro w hw j hj hn
    obtain ⟨v, hv, rfl⟩ := hmem w hw
    have := h4 v hv j hj hn
    rw [(h3 v hv).2.1] at this
    unfold raw at this
    rw [hmono.le_iff_le, neg_le_neg_iff, mul_le_mul_iff_right₀ hsig, div_mul_div_comm, div_mul_div_comm, div_le_div_iff_of_pos_right (mul_pos hdt hdt)] at this
    exact sq_le_sq.1 (by rw [pow_two, pow_two]; exact this)

/-- The weighted mean. -/
theorem mean_eq (l : List (K × Nat)) (f : Nat → K) (a : K) : l.foldl (fun s w => s + w.1 * f w.2) a = a + (l.map (fun w => w.1 * f w.2)).sum := by
  induction l generalizing a with
  | nil => simp
  | cons b l ih => simp only [List.foldl_cons, List.map_cons, List.sum_cons]; rw [ih]; ring

theorem mean_bounds (l : List (K × Nat)) (f : Nat → K) (lo hi : K) (h : ∀ w ∈ l, 0 ≤ w.1 ∧ lo ≤ f w.2 ∧ f w.2 ≤ hi) :
    lo * (l.map Prod.fst).sum ≤ (l.map (fun w => w.1 * f w.2)).sum ∧ (l.map (fun w => w.1 * f w.2)).sum ≤ hi * (l.map Prod.fst).sum := by
  induction l with
  | nil => simp
  | cons b l ih =>
    obtain ⟨h1, h2⟩ := ih fun w hw => h w (List.mem_cons_of_mem _ hw)
    obtain ⟨g1, g2, g3⟩ := h b List.mem_cons_self
    simp only [List.map_cons, List.sum_cons]
    constructor <;> nlinarith

/-- **C107.** The smoothed position is the mean of the samples with the weights: in every coordinate it lies between bounds of
the samples.  A time outside the samples or fewer than two of them is an error. -/
theorem smooth_spec (exp : K → K) (hpos : ∀ x, 0 < exp x) (hmono : StrictMono exp) (sort : List (K × Nat) → List (K × Nat)) (hs : Sorts sort)
    (ps : List (V3 K)) (t0 dt : K) (num : Nat) (sigma t : K) (hsig : 0 < sigma) (hdt : 0 < dt) (hnum : 0 < num) :
    (1 < ps.length → t0 ≤ t → t ≤ tend t0 dt ps.length → ∃ v, smooth exp sort ps t0 dt num sigma t = some v ∧
      v.x = ((weights exp sort t0 dt t ps.length num sigma).map (fun w => w.1 * (ps.getD w.2 0).x)).sum ∧
      v.y = ((weights exp sort t0 dt t ps.length num sigma).map (fun w => w.1 * (ps.getD w.2 0).y)).sum ∧
      v.z = ((weights exp sort t0 dt t ps.length num sigma).map (fun w => w.1 * (ps.getD w.2 0).z)).sum ∧
      ∀ lo hi : V3 K, (∀ i, i < ps.length → lo.x ≤ (ps.getD i 0).x ∧ (ps.getD i 0).x ≤ hi.x ∧ lo.y ≤ (ps.getD i 0).y ∧ (ps.getD i 0).y ≤ hi.y ∧
        lo.z ≤ (ps.getD i 0).z ∧ (ps.getD i 0).z ≤ hi.z) → lo.x ≤ v.x ∧ v.x ≤ hi.x ∧ lo.y ≤ v.y ∧ v.y ≤ hi.y ∧ lo.z ≤ v.z ∧ v.z ≤ hi.z) ∧
    (ps.length ≤ 1 ∨ t < t0 ∨ tend t0 dt ps.length < t → smooth exp sort ps t0 dt num sigma t = none) := by
  constructor
  · intro hn h1 h2
    obtain ⟨_, _, w3, w4, _, _⟩ := weights_spec exp hpos hmono sort hs t0 dt t ps.length num sigma hsig hdt (by omega) hnum
    set W := weights exp sort t0 dt t ps.length num sigma with hW
    obtain ⟨fx, fy, fz⟩ := foldl_x (fun w : K × Nat => w.1 * ps.getD w.2 0) W 0
    simp only [smul_x, smul_y, smul_z, zero_x, zero_y, zero_z] at fx fy fz
    rw [mean_eq W (fun i => (ps.getD i 0).x), zero_add] at fx
    rw [mean_eq W (fun i => (ps.getD i 0).y), zero_add] at fy
    rw [mean_eq W (fun i => (ps.getD i 0).z), zero_add] at fz
    refine ⟨W.foldl (fun s w => s + w.1 * ps.getD w.2 0) 0, ?_, fx, fy, fz, ?_⟩
    · unfold smooth
      rw [if_neg (by omega), if_neg (not_not.2 ⟨h1, h2⟩)]
    · intro lo hi hb
      rw [fx, fy, fz]
      have bx := mean_bounds W (fun i => (ps.getD i 0).x) lo.x hi.x fun w hw => ⟨(w3 w hw).2.le, (hb _ (w3 w hw).1).1, (hb _ (w3 w hw).1).2.1⟩
      have by' := mean_bounds W (fun i => (ps.getD i 0).y) lo.y hi.y fun w hw => ⟨(w3 w hw).2.le, (hb _ (w3 w hw).1).2.2.1, (hb _ (w3 w hw).1).2.2.2.1⟩
      have bz := mean_bounds W (fun i => (ps.getD i 0).z) lo.z hi.z fun w hw => ⟨(w3 w hw).2.le, (hb _ (w3 w hw).1).2.2.2.2.1, (hb _ (w3 w hw).1).2.2.2.2.2⟩
      rw [w4, mul_one, mul_one] at bx by' bz
      exact ⟨bx.1, bx.2, by'.1, by'.2, bz.1, bz.2⟩
  · intro h
    unfold smooth
    by_cases c : ps.length ≤ 1
    · rw [if_pos c]
    · rw [if_neg c, if_pos]
      rintro ⟨h1, h2⟩
      rcases h with h | h | h
      · exact c h
      · linarith
      · linarith

/-- **C107.** A point at rest stays there. -/
theorem smooth_const (exp : K → K) (hpos : ∀ x, 0 < exp x) (hmono : StrictMono exp) (sort : List (K × Nat) → List (K × Nat)) (hs : Sorts sort)
    (ps : List (V3 K)) (t0 dt : K) (num : Nat) (sigma t : K) (hsig : 0 < sigma) (hdt : 0 < dt) (hnum : 0 < num) (hn : 1 < ps.length) (h1 : t0 ≤ t)
    (h2 : t ≤ tend t0 dt ps.length) (p : V3 K) (h : ∀ i, i < ps.length → ps.getD i 0 = p) : smooth exp sort ps t0 dt num sigma t = some p := by
  obtain ⟨v, hv, _, _, _, hb⟩ := (smooth_spec exp hpos hmono sort hs ps t0 dt num sigma t hsig hdt hnum).1 hn h1 h2
  obtain ⟨a, b, c, d, e, f⟩ := hb p p fun i hi => by rw [h i hi]; exact ⟨le_rfl, le_rfl, le_rfl, le_rfl, le_rfl, le_rfl⟩
  rw [hv]
  congr 1
  ext
  · exact le_antisymm b a
  · exact le_antisymm d c
  · exact le_antisymm f e

/-- **C107, refuted part.** Interpolation should go through the samples: this one does not, whatever the (positive,
increasing) exponential, once two samples have a weight. -/
theorem smooth_misses (exp : K → K) (hpos : ∀ x, 0 < exp x) (hmono : StrictMono exp) (sort : List (K × Nat) → List (K × Nat)) (hs : Sorts sort)
    (sigma : K) (hsig : 0 < sigma) (num : Nat) (hnum : 2 ≤ num) : smooth exp sort [(⟨0, 0, 0⟩ : V3 K), ⟨1, 0, 0⟩] 0 1 num sigma 0 ≠ some ⟨0, 0, 0⟩ := by
  intro he
  obtain ⟨v, hv, hx, _, _, _⟩ := (smooth_spec exp hpos hmono sort hs [(⟨0, 0, 0⟩ : V3 K), ⟨1, 0, 0⟩] 0 1 num sigma 0 hsig one_pos (by omega)).1
    (by simp) le_rfl (by simp [tend])
  obtain ⟨w1, w2, w3, w4, _, _⟩ := weights_spec exp hpos hmono sort hs 0 1 0 2 num sigma hsig one_pos (by omega) (by omega)
  rw [he] at hv
  cases hv
  simp only [List.length_cons, List.length_nil] at hx
  set W := weights exp sort 0 1 0 2 num sigma with hW
  have hlen : W.length = 2 := by rw [w1]; omega
  have hzero : ∀ w ∈ W, w.1 * ((([(⟨0, 0, 0⟩ : V3 K), ⟨1, 0, 0⟩] : List (V3 K)).getD w.2 0).x) = 0 := by
    have hnn : ∀ x ∈ W.map (fun w => w.1 * ((([(⟨0, 0, 0⟩ : V3 K), ⟨1, 0, 0⟩] : List (V3 K)).getD w.2 0).x)), 0 ≤ x := by
      intro x hx
      obtain ⟨w, hw, rfl⟩ := List.mem_map.1 hx
      obtain ⟨a, b⟩ := w3 w hw
      have : w.2 = 0 ∨ w.2 = 1 := by omega
      rcases this with h | h <;> rw [h] <;> simp <;> exact b.le
    intro w hw
    have hle := List.single_le_sum hnn _ (List.mem_map.2 ⟨w, hw, rfl⟩)
    have hge := hnn _ (List.mem_map.2 ⟨w, hw, rfl⟩)
    exact le_antisymm (by rw [← hx] at hle; exact hle) hge
  have hall : ∀ w ∈ W, w.2 = 0 := by
    intro w hw
    obtain ⟨a, b⟩ := w3 w hw
    have : w.2 = 0 ∨ w.2 = 1 := by omega
    rcases this with h | h
    · exact h
    · have := hzero w hw
      rw [h] at this
      simp at this
      exact absurd this b.ne'
  match hq : W, hlen with
  | [a, b], _ =>
    have ha := hall a (by simp)
    have hb := hall b (by simp)
    simp [ha, hb] at w2

/-- **C107, refuted part.** With no weights asked for the result is the origin, not an error. -/
theorem smooth_none (exp : K → K) (sort : List (K × Nat) → List (K × Nat)) (ps : List (V3 K)) (t0 dt sigma t : K) (hn : 1 < ps.length) (h1 : t0 ≤ t)
    (h2 : t ≤ tend t0 dt ps.length) : smooth exp sort ps t0 dt 0 sigma t = some 0 := by
  unfold smooth
  rw [if_neg (by omega), if_neg (not_not.2 ⟨h1, h2⟩)]
  simp [weights]

/-- Non-vacuity: there is a sorting, and there are positive increasing functions. -/
example : Sorts (fun l : List (ℚ × Nat) => l.mergeSort (fun a b => decide (b.1 ≤ a.1))) ∧
    (∃ f : ℚ → ℚ, (∀ x, 0 < f x) ∧ StrictMono f) := by
  refine ⟨fun l => ⟨List.mergeSort_perm _ _, ?_⟩, fun x => if x ≤ 0 then 1 / (1 - x) else 1 + x, fun x => ?_, fun x y h => ?_⟩
  · have := List.pairwise_mergeSort (le := fun a b : ℚ × Nat => decide (b.1 ≤ a.1)) (fun a b c h1 h2 => by simp at *; exact le_trans h2 h1)
      (fun a b => by simp; exact le_total _ _) l
    simpa using this
  · by_cases c : x ≤ 0
    · simp only [if_pos c]; exact div_pos one_pos (by linarith)
    · simp only [if_neg c]; linarith
  · by_cases c : x ≤ 0
    · by_cases d : y ≤ 0
      · simp only [if_pos c, if_pos d]
        exact one_div_lt_one_div_of_lt (by linarith) (by linarith)
      · simp only [if_pos c, if_neg d]
        have : 1 / (1 - x) ≤ 1 := by rw [div_le_one (by linarith)]; linarith
        linarith
    · have d : ¬y ≤ 0 := by linarith
      simp only [if_neg c, if_neg d]
      linarith

end Verif.Camera.Interp
