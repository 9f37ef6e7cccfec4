import Verif.DMap.SampleProps
import Verif.DMap.CrossProps
import Mathlib.Data.List.GetD

/-
C94, second part.  Outliers of disparity maps.
-/

namespace Verif.DMap

set_option linter.unusedSectionVars false

variable {K : Type} [Field K] [LinearOrder K] [IsStrictOrderedRing K] [FloorRing K]

theorem mem_window (h v : Nat) (x y : Int) : (x, y) ∈ window h v ↔ |x| ≤ h ∧ |y| ≤ v := by
  unfold window
  simp only [List.mem_flatMap, List.mem_map, List.mem_range, Prod.mk.injEq, abs_le]
  constructor
  · rintro ⟨r, hr, c, hc, rfl, rfl⟩; omega
  · rintro ⟨h1, h2⟩
    exact ⟨(y + v).toNat, by omega, (x + h).toNat, by omega, by omega, by omega⟩

theorem length_window (h v : Nat) : (window h v).length = (2 * v + 1) * (2 * h + 1) := by
  unfold window
  simp [List.length_flatMap]

theorem nodup_window (h v : Nat) : (window h v).Nodup := by
  unfold window
  refine List.nodup_flatMap.2 ⟨fun r _ => ?_, ?_⟩
  · refine List.Nodup.map ?_ List.nodup_range
    intro a b e
    simpa using e
  · refine List.Nodup.pairwise_of_forall_ne List.nodup_range ?_
    intro a _ b _ hne x hx hy
    simp only [List.mem_map] at hx hy
    obtain ⟨_, _, rfl⟩ := hx
    obtain ⟨_, _, e⟩ := hy
    simp only [Prod.mk.injEq] at e
    exact hne (by omega)

/-- **C94.** A tile of a filtered map reads only pixels of the box that it asks its child for. -/
theorem padBox_covers (h v : Nat) (b : Box) (i j x y : Int) (hb : b.has i j) (hw : (x, y) ∈ window h v) :
    (padBox h v b).has (i + x) (j + y) := by
  rw [mem_window, abs_le, abs_le] at hw
  obtain ⟨h1, h2, h3, h4⟩ := hb
  unfold padBox Box.has
  simp only
  omega

/-- The neighbours that agree with a pixel. -/
def Agrees (pixThr : K) (d e : Disp K) : Prop := e.valid = true ∧ |d.dx - e.dx| ≤ pixThr ∧ |d.dy - e.dy| ≤ pixThr

instance (pixThr : K) (d e : Disp K) : Decidable (Agrees pixThr d e) := by unfold Agrees; infer_instance

theorem count_fold {α : Type} (p : α → Bool) (l : List α) (a b : Nat) :
    l.foldl (fun (s : Nat × Nat) w => (if p w then s.1 + 1 else s.1, s.2 + 1)) (a, b) = (a + l.countP p, b + l.length) := by
  induction l generalizing a b with
  | nil => simp
  | cons w l ih =>
    rw [List.foldl_cons, ih, List.countP_cons, List.length_cons]
    cases p w
    · simp; omega
    · simp; omega

/-- **C94.** The threshold filter: a valid pixel is kept exactly if the share of the window that is valid and within the
threshold of it is at least the one asked for; no disparity is changed and nothing invalid becomes valid. -/
theorem rmThresh_spec (h v : Nat) (pixThr rejThr : K) (I : Img (Disp K)) (i j : Int) :
    ((rmThresh h v pixThr rejThr I i j).valid = true ↔ (I i j).valid = true ∧
      rejThr * (((2 * v + 1) * (2 * h + 1) : Nat) : K) ≤
        ((window h v).countP (fun w => decide (Agrees pixThr (I i j) (I (i + w.1) (j + w.2)))) : Nat)) ∧
    ((rmThresh h v pixThr rejThr I i j).valid = true → rmThresh h v pixThr rejThr I i j = I i j) := by
  unfold rmThresh
  simp only
  cases hv : (I i j).valid with
  | false => simp [hv]
  | true =>
    simp only [if_true]
    rw [count_fold]
    simp only [Nat.zero_add, length_window]
    have hc : (window h v).countP (fun w => (I (i + w.1) (j + w.2)).valid && decide (|(I i j).dx - (I (i + w.1) (j + w.2)).dx| ≤ pixThr) &&
        decide (|(I i j).dy - (I (i + w.1) (j + w.2)).dy| ≤ pixThr)) =
        (window h v).countP (fun w => decide (Agrees pixThr (I i j) (I (i + w.1) (j + w.2)))) := by
      refine congrArg (fun f => (window h v).countP f) (funext fun w => ?_)
      rw [Bool.eq_iff_iff, decide_eq_true_iff]
      simp [Agrees, and_assoc]
    rw [hc]
    have hn : (0 : K) < (((2 * v + 1) * (2 * h + 1) : Nat) : K) := by
      have : 0 < (2 * v + 1) * (2 * h + 1) := Nat.mul_pos (by omega) (by omega)
      exact_mod_cast this
    by_cases hlt : (((window h v).countP (fun w => decide (Agrees pixThr (I i j) (I (i + w.1) (j + w.2)))) : Nat) : K) <
        rejThr * (((2 * v + 1) * (2 * h + 1) : Nat) : K)
    · rw [if_pos ((div_lt_iff₀ hn).2 hlt)]
      refine ⟨⟨fun h' => (by cases h'), fun h' => absurd hlt (not_lt.2 h'.2)⟩, fun h' => (by cases h')⟩
    · rw [if_neg (fun hh => hlt ((div_lt_iff₀ hn).1 hh))]
      exact ⟨⟨fun _ => ⟨trivial, not_lt.1 hlt⟩, fun _ => hv⟩, fun _ => rfl⟩

/-- **C94.** A pixel always agrees with itself: asking for no more than one pixel of the window keeps every valid pixel;
asking for more than all removes every pixel. -/
theorem rmThresh_extremes (h v : Nat) (pixThr rejThr : K) (I : Img (Disp K)) (i j : Int) (hp : 0 ≤ pixThr) :
    (rejThr * (((2 * v + 1) * (2 * h + 1) : Nat) : K) ≤ 1 → rmThresh h v pixThr rejThr I i j = I i j ∨ (I i j).valid = false) ∧
    (1 < rejThr → (rmThresh h v pixThr rejThr I i j).valid = false) := by
  obtain ⟨h1, h2⟩ := rmThresh_spec h v pixThr rejThr I i j
  constructor
  · intro hr
    cases hv : (I i j).valid with
    | false => exact Or.inr rfl
    | true =>
      left
      refine h2 (h1.2 ⟨hv, hr.trans ?_⟩)
      have : 0 < (window h v).countP (fun w => decide (Agrees pixThr (I i j) (I (i + w.1) (j + w.2)))) := by
        rw [List.countP_pos_iff]
        refine ⟨(0, 0), (mem_window h v 0 0).2 (by simp), ?_⟩
        simp [Agrees, hv, hp]
      exact_mod_cast this
  · intro hr
    rw [← Bool.not_eq_true, h1]
    rintro ⟨-, h'⟩
    have hle : (window h v).countP (fun w => decide (Agrees pixThr (I i j) (I (i + w.1) (j + w.2)))) ≤ (2 * v + 1) * (2 * h + 1) := by
      rw [← length_window]; exact List.countP_le_length
    have hle' : (((window h v).countP (fun w => decide (Agrees pixThr (I i j) (I (i + w.1) (j + w.2)))) : Nat) : K) ≤
        (((2 * v + 1) * (2 * h + 1) : Nat) : K) := by exact_mod_cast hle
    have hn : (0 : K) < (((2 * v + 1) * (2 * h + 1) : Nat) : K) := by
      have : 0 < (2 * v + 1) * (2 * h + 1) := Nat.mul_pos (by omega) (by omega)
      exact_mod_cast this
    nlinarith

/-- A gross outlier of a row. -/
def Gross (cut : K) (d : Disp K) : Prop := d.valid = true ∧ cut < |d.dx| + |d.dy|

/-- **C94, refuted part.** When the loop for the mean meets a gross outlier, it stays on it: the rest of the row is not
looked at. -/
theorem mean_row_stuck (I : Img (Disp K)) (cut : K) (x y : Int) (k : Nat) (s : K × K × Nat) (hg : Gross cut (I x y)) :
    meanRow I cut y k x s = s := by
  induction k with
  | zero => rfl
  | succ k ih =>
    unfold meanRow
    simp only [hg.1, if_true, if_pos hg.2, ih]

/-- **C94.** Up to the first gross outlier, or the end of the row, the loop adds up the valid disparities. -/
theorem mean_row_spec (I : Img (Disp K)) (cut : K) (y : Int) (n k : Nat) (x : Int) (s : K × K × Nat) (hn : n ≤ k)
    (hno : ∀ c : Nat, c < n → ¬ Gross cut (I (x + c) y)) (hend : n = k ∨ Gross cut (I (x + n) y)) :
    meanRow I cut y k x s =
      (s.1 + (((List.range n).map (fun c : Nat => I (x + c) y)).filter (fun d => d.valid) |>.map (·.dx)).sum,
       s.2.1 + (((List.range n).map (fun c : Nat => I (x + c) y)).filter (fun d => d.valid) |>.map (·.dy)).sum,
       s.2.2 + (((List.range n).map (fun c : Nat => I (x + c) y)).filter (fun d => d.valid)).length) := by
  induction n generalizing k x s with
  | zero =>
    simp only [List.range_zero, List.map_nil, List.filter_nil, List.sum_nil, add_zero, List.length_nil]
    rcases hend with rfl | hg
    · rfl
    · exact mean_row_stuck I cut x y k s (by simpa using hg)
  | succ n ih =>
    obtain ⟨k, rfl⟩ : ∃ k', k = k' + 1 := ⟨k - 1, by omega⟩
    have h0 := hno 0 (by omega)
    simp only [Nat.cast_zero, add_zero] at h0
    have hno' : ∀ c : Nat, c < n → ¬ Gross cut (I (x + 1 + c) y) := by
      intro c hc
      have := hno (c + 1) (by omega)
      rwa [show x + ((c + 1 : Nat) : Int) = x + 1 + c by push_cast; omega] at this
    have hend' : n = k ∨ Gross cut (I (x + 1 + n) y) := by
      rcases hend with h | h
      · left; omega
      · right; rwa [show x + ((n + 1 : Nat) : Int) = x + 1 + n by push_cast; omega] at h
    have hlist : (List.range (n + 1)).map (fun c : Nat => I (x + c) y) =
        I x y :: (List.range n).map (fun c : Nat => I (x + 1 + c) y) := by
      rw [List.range_succ_eq_map, List.map_cons, List.map_map]
      refine congrArg₂ List.cons (by simp) (List.map_congr_left fun c _ => ?_)
      simp only [Function.comp]
      rw [show x + ((c.succ : Nat) : Int) = x + 1 + c by push_cast; omega]
    rw [hlist]
    unfold meanRow
    simp only
    cases hv : (I x y).valid with
    | false =>
      simp only [Bool.false_eq_true, if_false]
      rw [ih k (x + 1) s (by omega) hno' hend', List.filter_cons, if_neg (by rw [hv]; simp)]
    | true =>
      simp only [if_true]
      rw [if_neg (fun hc => h0 ⟨hv, hc⟩), ih k (x + 1) _ (by omega) hno' hend', List.filter_cons, if_pos hv]
      simp only [List.map_cons, List.sum_cons, List.length_cons]
      refine Prod.ext ?_ (Prod.ext ?_ ?_)
      · simp only; ring
      · simp only; ring
      · simp only; omega

/-- **C94.** The mean filter never changes a disparity and never makes a pixel valid. -/
theorem rmMean_frame (h v : Nat) (m : K) (I : Img (Disp K)) (i j : Int) :
    ((rmMean h v m I i j).valid = true → rmMean h v m I i j = I i j) ∧ ((I i j).valid = false → rmMean h v m I i j = I i j) := by
  unfold rmMean
  simp only
  cases hv : (I i j).valid with
  | false => simp
  | true =>
    simp only [Bool.not_true, Bool.false_eq_true, if_false]
    refine ⟨fun h' => ?_, fun h' => (by cases h')⟩
    generalize (if 0 < (List.foldl _ ((0, 0, 0) : K × K × Nat) (List.range (2 * v + 1))).2.2 then _ else m + 1) = err at h' ⊢
    by_cases hh : m < err
    · rw [if_pos hh] at h'; cases h'
    · rw [if_neg hh]

/-- The valid disparities of a window are those of its rows. -/
theorem validIn_eq (h v : Nat) (I : Img (Disp K)) (i j : Int) :
    validIn h v I i j = (List.range (2 * v + 1)).flatMap (fun r : Nat =>
      ((List.range (2 * h + 1)).map (fun c : Nat => I (i - h + c) (j + ((r : Int) - v)))).filter (fun d => d.valid)) := by
  unfold validIn window
  rw [List.map_flatMap, List.filter_flatMap]
  refine congrArg (fun f => List.flatMap f (List.range (2 * v + 1))) (funext fun r => ?_)
  rw [List.map_map]
  refine congrArg _ (List.map_congr_left fun c _ => ?_)
  simp only [Function.comp]
  rw [show i + ((c : Int) - h) = i - h + c by omega]

/-- **C94.** Without gross outliers in the window, the mean filter keeps a valid pixel exactly if it is within the distance
given of the mean of the valid disparities of the window. -/
theorem rmMean_spec (h v : Nat) (m : K) (I : Img (Disp K)) (i j : Int) (hv : (I i j).valid = true)
    (hno : ∀ w ∈ window h v, ¬ Gross (cutoff h v I i j) (I (i + w.1) (j + w.2))) :
    0 < (validIn h v I i j).length ∧
    ((rmMean h v m I i j).valid = true ↔
      ((I i j).dx - ((validIn h v I i j).map (·.dx)).sum / ((validIn h v I i j).length : K)) ^ 2 +
      ((I i j).dy - ((validIn h v I i j).map (·.dy)).sum / ((validIn h v I i j).length : K)) ^ 2 ≤ m) := by
  have hpos : 0 < (validIn h v I i j).length := by
    refine List.length_pos_of_mem (a := I i j) ?_
    unfold validIn
    refine List.mem_filter.2 ⟨List.mem_map.2 ⟨(0, 0), (mem_window h v 0 0).2 (by simp), by simp⟩, hv⟩
  refine ⟨hpos, ?_⟩
  -- the loop over rows
  have key : ∀ (l : List Nat) (s : K × K × Nat), (∀ r ∈ l, r < 2 * v + 1) →
      l.foldl (fun s (r : Nat) => meanRow I (cutoff h v I i j) (j + ((r : Int) - v)) (2 * h + 1) (i - h) s) s =
      (s.1 + ((l.flatMap (fun r : Nat =>
          ((List.range (2 * h + 1)).map (fun c : Nat => I (i - h + c) (j + ((r : Int) - v)))).filter (fun d => d.valid))).map (·.dx)).sum,
       s.2.1 + ((l.flatMap (fun r : Nat =>
          ((List.range (2 * h + 1)).map (fun c : Nat => I (i - h + c) (j + ((r : Int) - v)))).filter (fun d => d.valid))).map (·.dy)).sum,
       s.2.2 + (l.flatMap (fun r : Nat =>
          ((List.range (2 * h + 1)).map (fun c : Nat => I (i - h + c) (j + ((r : Int) - v)))).filter (fun d => d.valid))).length) := by
    intro l
    induction l with
    | nil => intro s _; simp
    | cons r l ih =>
      intro s hr
      have hr0 := hr r List.mem_cons_self
      rw [List.foldl_cons, ih _ (fun x hx => hr x (List.mem_cons_of_mem _ hx))]
      rw [mean_row_spec I (cutoff h v I i j) (j + ((r : Int) - v)) (2 * h + 1) (2 * h + 1) (i - h) s le_rfl
        (fun c hc => by
          have hw : ((c : Int) - h, (r : Int) - v) ∈ window h v := by
            rw [mem_window, abs_le, abs_le]; omega
          have := hno _ hw
          simp only at this
          rwa [show i + ((c : Int) - h) = i - h + c by omega] at this) (Or.inl rfl)]
      simp only [List.flatMap_cons, List.map_append, List.sum_append, List.length_append]
      refine Prod.ext ?_ (Prod.ext ?_ ?_)
      · simp only; ring
      · simp only; ring
      · simp only; omega
  unfold rmMean
  simp only [hv, Bool.not_true, Bool.false_eq_true, if_false]
  rw [key _ _ (fun r hr => List.mem_range.1 hr), ← validIn_eq]
  simp only [zero_add, if_pos hpos]
  generalize ((I i j).dx - ((validIn h v I i j).map (·.dx)).sum / ((validIn h v I i j).length : K)) = a
  generalize ((I i j).dy - ((validIn h v I i j).map (·.dy)).sum / ((validIn h v I i j).length : K)) = b
  rw [show a ^ 2 + b ^ 2 = a * a + b * b by ring]
  by_cases hlt : m < a * a + b * b
  · rw [if_pos hlt]
    exact ⟨fun h' => (by cases h'), fun h' => absurd hlt (not_lt.2 h')⟩
  · rw [if_neg hlt]
    exact ⟨fun _ => not_lt.1 hlt, fun _ => hv⟩

/-- **C94.** The cutoff is twice the magnitude of a valid disparity of the window, if there is one. -/
theorem cutoff_spec (h v : Nat) (I : Img (Disp K)) (i j : Int) (hv : (I i j).valid = true) :
    ∃ w ∈ window h v, (I (i + w.1) (j + w.2)).valid = true ∧
      cutoff h v I i j = 2 * (|(I (i + w.1) (j + w.2)).dx| + |(I (i + w.1) (j + w.2)).dy|) := by
  have hmem : (|(I i j).dx| + |(I i j).dy|) ∈ magnitudes h v I i j := by
    unfold magnitudes
    refine List.mem_filterMap.2 ⟨(0, 0), (mem_window h v 0 0).2 (by simp), ?_⟩
    simp [hv]
  unfold cutoff
  simp only
  generalize hl : (magnitudes h v I i j).mergeSort (fun a b => decide (a ≤ b)) = l
  have hmem' : ∀ z, z ∈ l ↔ z ∈ magnitudes h v I i j := fun z => by rw [← hl]; exact List.mem_mergeSort
  have hne : l.isEmpty = false := by
    cases l with
    | nil => exact absurd ((hmem' _).2 hmem) List.not_mem_nil
    | cons _ _ => rfl
  rw [if_neg (by rw [hne]; simp)]
  have hlen : 0 < l.length := by
    cases l with
    | nil => cases hne
    | cons _ _ => simp
  have hlt : 3 * l.length / 4 < l.length := by omega
  rw [List.getD_eq_getElem _ _ hlt]
  have := (hmem' _).1 (List.getElem_mem hlt)
  unfold magnitudes at this
  obtain ⟨w, hw, he⟩ := List.mem_filterMap.1 this
  refine ⟨w, hw, ?_⟩
  simp only at he
  cases hvw : (I (i + w.1) (j + w.2)).valid with
  | false => rw [hvw] at he; simp at he
  | true =>
    rw [hvw] at he
    simp only [if_true, Option.some.injEq] at he
    exact ⟨rfl, by rw [he]⟩

theorem rank_sorted (l : List K) (hl : l.Pairwise (· ≤ ·)) (k : Nat) (hk : k < l.length) :
    l.countP (fun z => decide (z < l[k])) ≤ k ∧ k < l.countP (fun z => decide (z ≤ l[k])) := by
  have hle : ∀ a b : Nat, (ha : a < l.length) → (hb : b < l.length) → a ≤ b → l[a] ≤ l[b] := by
    intro a b ha hb hab
    rcases Nat.lt_or_eq_of_le hab with h | h
    · exact List.pairwise_iff_getElem.1 hl a b ha hb h
    · subst h; exact le_rfl
  constructor
  · rw [show l.countP (fun z => decide (z < l[k])) = (l.take k ++ l.drop k).countP (fun z => decide (z < l[k])) by
      rw [List.take_append_drop], List.countP_append]
    have h2 : (l.drop k).countP (fun z => decide (z < l[k])) = 0 := by
      rw [List.countP_eq_zero]
      intro z hz
      obtain ⟨n, hn, rfl⟩ := List.mem_iff_getElem.1 hz
      rw [List.getElem_drop]
      simp only [decide_eq_true_eq, not_lt]
      exact hle _ _ _ _ (by omega)
    have h1 : (l.take k).countP (fun z => decide (z < l[k])) ≤ (l.take k).length := List.countP_le_length
    rw [List.length_take] at h1
    omega
  · rw [show l.countP (fun z => decide (z ≤ l[k])) = (l.take (k + 1) ++ l.drop (k + 1)).countP (fun z => decide (z ≤ l[k])) by
      rw [List.take_append_drop], List.countP_append]
    have h1 : (l.take (k + 1)).countP (fun z => decide (z ≤ l[k])) = (l.take (k + 1)).length := by
      rw [List.countP_eq_length]
      intro z hz
      obtain ⟨n, hn, rfl⟩ := List.mem_iff_getElem.1 hz
      rw [List.length_take] at hn
      rw [List.getElem_take]
      simp only [decide_eq_true_eq]
      exact hle _ _ _ _ (by omega)
    rw [h1, List.length_take]
    omega

/-- **C94.** Half the cutoff is the upper quartile of the magnitudes of the window: at most three quarters of them are
below it, and more than three quarters are not above it. -/
theorem cutoff_rank (h v : Nat) (I : Img (Disp K)) (i j : Int) (hv : (I i j).valid = true) :
    (magnitudes h v I i j).countP (fun z => decide (z < cutoff h v I i j / 2)) ≤ 3 * (magnitudes h v I i j).length / 4 ∧
    3 * (magnitudes h v I i j).length / 4 < (magnitudes h v I i j).countP (fun z => decide (z ≤ cutoff h v I i j / 2)) := by
  have hmem : (|(I i j).dx| + |(I i j).dy|) ∈ magnitudes h v I i j := by
    unfold magnitudes
    refine List.mem_filterMap.2 ⟨(0, 0), (mem_window h v 0 0).2 (by simp), ?_⟩
    simp [hv]
  have hperm : ((magnitudes h v I i j).mergeSort (fun a b => decide (a ≤ b))).Perm (magnitudes h v I i j) := List.mergeSort_perm _ _
  have hsort : ((magnitudes h v I i j).mergeSort (fun a b => decide (a ≤ b))).Pairwise (· ≤ ·) := by
    have := List.pairwise_mergeSort (le := fun a b : K => decide (a ≤ b))
      (fun a b c h1 h2 => by simp only [decide_eq_true_eq] at *; exact h1.trans h2)
      (fun a b => by simp only [Bool.or_eq_true, decide_eq_true_eq]; exact le_total a b) (magnitudes h v I i j)
    exact this.imp (fun h => by simpa using h)
  unfold cutoff
  simp only
  generalize hl : (magnitudes h v I i j).mergeSort (fun a b => decide (a ≤ b)) = l at hperm hsort
  have hlen : 0 < l.length := by rw [hperm.length_eq]; exact List.length_pos_of_mem hmem
  have hne : l.isEmpty = false := by
    cases l with
    | nil => simp at hlen
    | cons _ _ => rfl
  rw [if_neg (by rw [hne]; simp), ← hperm.countP_eq, ← hperm.countP_eq, ← hperm.length_eq]
  have hlt : 3 * l.length / 4 < l.length := by omega
  rw [List.getD_eq_getElem _ _ hlt, mul_div_cancel_left₀ _ (two_ne_zero)]
  exact rank_sorted l hsort _ hlt

/-- **C94.** The standard deviation filter: a valid pixel is kept exactly if in each coordinate its distance from the mean
of the valid disparities of the window is at most the given multiple of their deviation, the latter at least the bound given. -/
theorem rmStd_spec (sqrt : K → K) (h v : Nat) (pixThr rejThr : K) (I : Img (Disp K)) (i j : Int) :
    ((rmStd sqrt h v pixThr rejThr I i j).valid = true ↔ (I i j).valid = true ∧
      |(I i j).dx - ((validIn h v I i j).map (·.dx)).sum / ((validIn h v I i j).length : K)| ≤ pixThr * max rejThr (sqrt
        (((validIn h v I i j).map (fun e => (e.dx - ((validIn h v I i j).map (·.dx)).sum / ((validIn h v I i j).length : K)) ^ 2)).sum /
          ((validIn h v I i j).length : K))) ∧
      |(I i j).dy - ((validIn h v I i j).map (·.dy)).sum / ((validIn h v I i j).length : K)| ≤ pixThr * max rejThr (sqrt
        (((validIn h v I i j).map (fun e => (e.dy - ((validIn h v I i j).map (·.dy)).sum / ((validIn h v I i j).length : K)) ^ 2)).sum /
          ((validIn h v I i j).length : K)))) ∧
    ((rmStd sqrt h v pixThr rejThr I i j).valid = true → rmStd sqrt h v pixThr rejThr I i j = I i j) := by
  have hmax : ∀ a b : K, (if b < a then a else b) = max a b := by
    intro a b
    by_cases hab : b < a
    · rw [if_pos hab, max_eq_left hab.le]
    · rw [if_neg hab, max_eq_right (not_lt.1 hab)]
  cases hv : (I i j).valid with
  | false => unfold rmStd; simp [hv]
  | true =>
    have hpos : (validIn h v I i j).length ≠ 0 := by
      refine (List.length_pos_of_mem (a := I i j) ?_).ne'
      unfold validIn
      exact List.mem_filter.2 ⟨List.mem_map.2 ⟨(0, 0), (mem_window h v 0 0).2 (by simp), by simp⟩, hv⟩
    unfold rmStd
    simp only [hv, Bool.not_true, Bool.false_eq_true, if_false, if_neg hpos, hmax, pow_two]
    split
    · rename_i hor
      refine ⟨⟨fun h' => (by cases h'), fun h' => ?_⟩, fun h' => (by cases h')⟩
      rcases hor with h'' | h''
      · exact absurd h'' (not_lt.2 h'.2.1)
      · exact absurd h'' (not_lt.2 h'.2.2)
    · rename_i hor
      push Not at hor
      exact ⟨⟨fun _ => ⟨trivial, hor⟩, fun _ => hv⟩, fun _ => rfl⟩

/-- **C94.** The values recorded by the standard deviation filter fit in the vectors for windows that are not wider than
high. -/
theorem stdWrites_fit (h v : Nat) (I : Img (Disp K)) (i j : Int) (hh : h ≤ v) : ∀ k ∈ stdWrites h v I i j, k < stdSize h v := by
  intro k hk
  unfold stdWrites at hk
  have h1 := List.mem_range.1 hk
  have h2 : (window h v).countP (fun w => (I (i + w.1) (j + w.2)).valid) ≤ (2 * v + 1) * (2 * h + 1) := by
    rw [← length_window]; exact List.countP_le_length
  have h3 : (2 * v + 1) * (2 * h + 1) ≤ (2 * v + 1) * (2 * v + 1) := Nat.mul_le_mul_left _ (by omega)
  unfold stdSize
  omega

/-- **C94, refuted part.** For wider windows they do not: where all of the window is valid the filter writes behind the end
of the vectors, whose size is computed from the height alone. -/
theorem stdWrites_overflow (h v : Nat) (I : Img (Disp K)) (i j : Int) (hh : v < h)
    (hv : ∀ w ∈ window h v, (I (i + w.1) (j + w.2)).valid = true) : ∃ k ∈ stdWrites h v I i j, stdSize h v ≤ k := by
  have h1 : (window h v).countP (fun w => (I (i + w.1) (j + w.2)).valid) = (2 * v + 1) * (2 * h + 1) := by
    rw [← length_window, List.countP_eq_length]; exact hv
  refine ⟨stdSize h v, ?_, le_rfl⟩
  unfold stdWrites stdSize
  rw [List.mem_range, h1]
  exact Nat.mul_lt_mul_of_pos_left (by omega) (by omega)

/-- **C94.** The deviation image for odd sizes: the sum of squared differences to the mean of the window over the number of
its pixels less one; zero for a constant image. -/
theorem stdDevImage_odd (h v : Nat) (I : Img K) (i j : Int) :
    let n : K := (((2 * v + 1) * (2 * h + 1) : Nat) : K)
    let mean := ((window h v).map (fun o => I (i + o.1) (j + o.2))).sum / n
    stdDevImage (2 * h + 1) (2 * v + 1) I i j = ((window h v).map (fun o => (I (i + o.1) (j + o.2) - mean) ^ 2)).sum / (n - 1) ∧
    ((∀ x y, I x y = I i j) → stdDevImage (2 * h + 1) (2 * v + 1) I i j = 0) := by
  simp only
  have main : stdDevImage (2 * h + 1) (2 * v + 1) I i j = ((window h v).map (fun o => (I (i + o.1) (j + o.2) -
      ((window h v).map (fun o => I (i + o.1) (j + o.2))).sum / (((2 * v + 1) * (2 * h + 1) : Nat) : K)) ^ 2)).sum /
      ((((2 * v + 1) * (2 * h + 1) : Nat) : K) - 1) := by
    unfold stdDevImage
    simp only
    rw [show (2 * h + 1) / 2 = h by omega, show (2 * v + 1) / 2 = v by omega,
      show ((2 * h + 1 : Nat) : K) * ((2 * v + 1 : Nat) : K) = (((2 * v + 1) * (2 * h + 1) : Nat) : K) by push_cast; ring]
    rw [List.map_map]
    simp only [Function.comp_def, pow_two]
  refine ⟨main, fun hI => ?_⟩
  have hn : (((2 * v + 1) * (2 * h + 1) : Nat) : K) ≠ 0 := by
    have : (2 * v + 1) * (2 * h + 1) ≠ 0 := Nat.mul_ne_zero (by omega) (by omega)
    exact_mod_cast this
  have hc : ∀ (z : K), ((window h v).map (fun _ => z)).sum = (((2 * v + 1) * (2 * h + 1) : Nat) : K) * z := by
    intro z
    rw [List.map_const', List.sum_replicate, length_window, nsmul_eq_mul]
  rw [main]
  simp only [hI]
  rw [hc (I i j), mul_div_cancel_left₀ _ hn]
  simp

/-- **C94, refuted part.** For even sizes the window has one column and row more than what the sums are divided by: a
constant image has a deviation. -/
theorem stdDevImage_even : stdDevImage 2 2 (fun _ _ => (1 : ℚ)) 0 0 = 75 / 16 := by
  decide +kernel

/-- Cases: a window without gross outliers, and one with. -/
example : (∀ w ∈ window 1 1, ¬ Gross (2 * 1) ((fun _ _ => ⟨1, 0, true⟩ : Img (Disp ℚ)) (0 + w.1) (0 + w.2))) ∧
    Gross (2 * 1) (⟨5, 0, true⟩ : Disp ℚ) := by
  constructor
  · intro w _ hg
    have := hg.2
    norm_num at this
  · exact ⟨rfl, by norm_num⟩

end Verif.DMap
