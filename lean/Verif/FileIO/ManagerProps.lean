import Verif.FileIO.Manager
import Mathlib.Tactic.Linarith
import Mathlib.Tactic.NormNum
import Mathlib.Tactic.SplitIfs
import Mathlib.Data.List.GetD

/-
C118: the manager of image files.
-/

namespace Verif.FileIO
open VW.BBox

/-! ### Specification -/

/-- No point is in both boxes. -/
def Apart (b c : Box ℝ 2) : Prop := ∀ p, ¬ (b.contains p = true ∧ c.contains p = true)

/-- Image `j` is open and nobody uses it. -/
def Idle (s : Mgr) (j : Nat) : Prop := ∃ e, s.files[j]? = some e ∧ e.handle ≠ none ∧ e.used = 0

/-- The image can be closed for `bbox`: it is idle, and shows nothing of the box. -/
def Spare (s : Mgr) (bbox : Box ℝ 2) (j : Nat) : Prop :=
  ∃ e, s.files[j]? = some e ∧ e.handle ≠ none ∧ e.used = 0 ∧ Apart e.box bbox

/-- The middle of a box. -/
noncomputable def middle (b : Box ℝ 2) : ℝ × ℝ := ((b.min 0 + b.max 0) / 2, (b.min 1 + b.max 1) / 2)

/-- How far an image is from the box: the distance of the centres, zero if one of the boxes is empty. -/
noncomputable def awayOf (s : Mgr) (bbox : Box ℝ 2) (j : Nat) : ℝ :=
  match s.files[j]? with
  | some e => if e.box.empty || bbox.empty then 0
    else √(((middle e.box).1 - (middle bbox).1) ^ 2 + ((middle e.box).2 - (middle bbox).2) ^ 2)
  | none => 0

/-! ### Helpers -/

theorem centreDist_eq (b c : Box ℝ 2) :
    centreDist b c = √(((middle b).1 - (middle c).1) ^ 2 + ((middle b).2 - (middle c).2) ^ 2) := by
  unfold centreDist middle
  congr 1
  ring

theorem centreDist_nonneg (b c : Box ℝ 2) : 0 ≤ centreDist b c := Real.sqrt_nonneg _

theorem maxFrom_spec (l : List ℝ) : ∀ (pre : List ℝ) (bi : Nat) (best : ℝ), bi < pre.length → pre.getD bi 0 = best →
    (∀ j < pre.length, pre.getD j 0 ≤ best) → (∀ j < bi, pre.getD j 0 < best) →
    maxFrom best bi pre.length l < (pre ++ l).length ∧
    (∀ j < (pre ++ l).length, (pre ++ l).getD j 0 ≤ (pre ++ l).getD (maxFrom best bi pre.length l) 0) ∧
    (∀ j < maxFrom best bi pre.length l, (pre ++ l).getD j 0 < (pre ++ l).getD (maxFrom best bi pre.length l) 0) := by
  induction l with
  | nil =>
    intro pre bi best h1 h2 h3 h4
    simp only [maxFrom, List.append_nil]
    rw [h2]
    exact ⟨h1, h3, h4⟩
  | cons x l ih =>
    intro pre bi best h1 h2 h3 h4
    unfold maxFrom
    have hl : (pre ++ [x]).length = pre.length + 1 := by simp
    have hget : ∀ j < pre.length, (pre ++ [x]).getD j 0 = pre.getD j 0 := fun j hj => List.getD_append _ _ _ _ hj
    have hlast : (pre ++ [x]).getD pre.length 0 = x := by simp [List.getD]
    by_cases hb : best < x
    · rw [if_pos hb]
      have := ih (pre ++ [x]) pre.length x (by omega) hlast
        (by
          intro j hj
          rcases Nat.lt_or_ge j pre.length with h | h
          · rw [hget j h]; exact le_trans (h3 j h) hb.le
          · have : j = pre.length := by omega
            rw [this, hlast])
        (by intro j hj; rw [hget j hj]; exact lt_of_le_of_lt (h3 j hj) hb)
      rw [hl] at this
      simpa using this
    · rw [if_neg hb]
      have := ih (pre ++ [x]) bi best (by omega) (by rw [hget bi h1, h2])
        (by
          intro j hj
          rcases Nat.lt_or_ge j pre.length with h | h
          · rw [hget j h]; exact h3 j h
          · have : j = pre.length := by omega
            rw [this, hlast]; exact not_lt.1 hb)
        (by intro j hj; rw [hget j (by omega)]; exact h4 j hj)
      rw [hl] at this
      simpa using this

theorem maxIndex_spec (l : List ℝ) (h : l ≠ []) : maxIndex l < l.length ∧ (∀ j < l.length, l.getD j 0 ≤ l.getD (maxIndex l) 0) ∧
    (∀ j < maxIndex l, l.getD j 0 < l.getD (maxIndex l) 0) := by
  cases l with
  | nil => exact absurd rfl h
  | cons x l =>
    have := maxFrom_spec l [x] 0 x (by simp) rfl (by intro j hj; simp at hj; subst hj; simp) (by intro j hj; omega)
    simpa [maxIndex] using this

theorem meets_iff (b c : Box ℝ 2) : (b.crop c).empty = false ↔ ¬ Apart b c := by
  unfold Apart Box.empty Box.contains Box.crop
  simp only [Bool.or_eq_false_iff, decide_eq_false_iff_not, not_exists, ge_iff_le, not_le]
  constructor
  · rintro ⟨h, -⟩ ha
    refine ha (fun i => if b.min i < c.min i then c.min i else b.min i) ?_
    simp only [ne_eq, OfNat.ofNat_ne_zero, not_false_eq_true, decide_true, Bool.true_and, Bool.and_eq_true, decide_eq_true_eq]
    refine ⟨⟨fun i => ?_, fun i => ?_⟩, fun i => ?_, fun i => ?_⟩ <;> have := h i <;> split_ifs at this ⊢ <;> linarith
  · intro h
    refine ⟨fun i => ?_, by norm_num⟩
    by_contra hc
    apply h
    rintro p ⟨h1, h2⟩
    simp only [ne_eq, OfNat.ofNat_ne_zero, not_false_eq_true, decide_true, Bool.true_and, Bool.and_eq_true, decide_eq_true_eq] at h1 h2
    have a := h1.1 i
    have b := h1.2 i
    have c := h2.1 i
    have d := h2.2 i
    apply hc
    split_ifs <;> linarith

/-- The manager after the use count of an image went up. -/
def Mgr.bump (s : Mgr) (i : Nat) : Mgr := { s with files := s.files.modify i fun e => { e with used := e.used + 1 } }

theorem bump_get (s : Mgr) (i j : Nat) : (s.bump i).files[j]? = (s.files[j]?).map fun e => if i = j then { e with used := e.used + 1 } else e := by
  unfold Mgr.bump
  rw [List.getElem?_modify]
  by_cases h : i = j <;> simp [h]

theorem bump_handle (s : Mgr) (i j : Nat) : (s.bump i).handle j = s.handle j := by
  unfold Mgr.handle
  rw [bump_get]
  cases s.files[j]? with
  | none => rfl
  | some e => by_cases h : i = j <;> simp [h]

theorem get_eq (s : Mgr) (i : Nat) (bbox : Box ℝ 2) (ok : Bool) : s.get i bbox ok =
    match s.handle i with
    | some h => (s.bump i, .handle h)
    | none =>
      if ((s.bump i).files.map (rank bbox)).getD (maxIndex ((s.bump i).files.map (rank bbox))) 0 = 0 then (s.bump i, .noneFree)
      else match s.handle (maxIndex ((s.bump i).files.map (rank bbox))) with
        | none => (s.bump i, .notOpen)
        | some _ =>
          if ok then (((s.bump i).close (maxIndex ((s.bump i).files.map (rank bbox)))).open i, .handle s.next)
          else ((s.bump i).close (maxIndex ((s.bump i).files.map (rank bbox))), .openFailed) := by
  rw [← bump_handle s i i]
  conv_rhs => rw [← bump_handle s i (maxIndex _)]
  rfl

/-- The rank of image `j` when image `i` is asked for. -/
noncomputable def rk (s : Mgr) (i : Nat) (bbox : Box ℝ 2) (j : Nat) : ℝ := ((s.bump i).files.map (rank bbox)).getD j 0

theorem bump_length (s : Mgr) (i : Nat) : (s.bump i).files.length = s.files.length := by
  unfold Mgr.bump; simp

theorem rk_none (s : Mgr) (i j : Nat) (bbox : Box ℝ 2) (h : s.files.length ≤ j) : rk s i bbox j = 0 := by
  unfold rk
  rw [List.getD_eq_default]
  simp [bump_length, h]

theorem rk_some (s : Mgr) (i j : Nat) (bbox : Box ℝ 2) (e : Entry) (h : s.files[j]? = some e) :
    rk s i bbox j = if i = j then 0 else rank bbox e := by
  unfold rk
  rw [List.getD_eq_getElem?_getD, List.getElem?_map, bump_get, h]
  by_cases hij : i = j
  · simp [hij, rank]
  · simp [hij]

theorem spare_rk (s : Mgr) (i j : Nat) (bbox : Box ℝ 2) (hi : s.handle i = none) (h : Spare s bbox j) :
    i ≠ j ∧ rk s i bbox j = awayOf s bbox j + 2 ∧ 2 ≤ rk s i bbox j := by
  obtain ⟨e, h1, h2, h3, h4⟩ := h
  have hij : i ≠ j := by
    rintro rfl
    unfold Mgr.handle at hi
    rw [h1] at hi
    exact h2 hi
  have hm : ¬ (e.box.crop bbox).empty = false := by rw [meets_iff]; exact fun h => h h4
  have key : rk s i bbox j = awayOf s bbox j + 2 := by
    rw [rk_some s i j bbox e h1, if_neg hij]
    unfold rank awayOf
    rw [h1, if_neg (by omega), if_neg hm, if_neg h2]
    dsimp only
    rw [centreDist_eq]
    split_ifs <;> simp
  refine ⟨hij, key, ?_⟩
  rw [key]
  unfold awayOf
  rw [h1]
  dsimp only
  have := centreDist_nonneg e.box bbox
  rw [centreDist_eq] at this
  split_ifs <;> linarith

theorem not_spare_rk (s : Mgr) (i j : Nat) (bbox : Box ℝ 2) (h : ¬ Spare s bbox j) :
    rk s i bbox j ≤ 1.5 ∧ (rk s i bbox j = 1.5 ↔ i ≠ j ∧ ∃ e, s.files[j]? = some e ∧ e.used = 0 ∧ ¬ Apart e.box bbox) ∧
    (rk s i bbox j = 0 ↔ i = j ∨ ∀ e, s.files[j]? = some e → 0 < e.used) ∧ 0 ≤ rk s i bbox j ∧
    (rk s i bbox j = 1 → s.handle j = none) ∧ (rk s i bbox j = 0 ∨ rk s i bbox j = 1 ∨ rk s i bbox j = 1.5) := by
  cases hj : s.files[j]? with
  | none =>
    have := rk_none s i j bbox (by simpa using hj)
    rw [this]
    norm_num
    exact ⟨fun _ x h => by simp at h, Or.inr fun x h => by simp at h⟩
  | some e =>
    rw [rk_some s i j bbox e hj]
    by_cases hij : i = j
    · rw [if_pos hij]; norm_num [hij]
    · rw [if_neg hij]
      unfold rank
      by_cases hu : 0 < e.used
      · rw [if_pos hu]; norm_num [hij, hu]; intro h; omega
      · rw [if_neg hu]
        by_cases hm : (e.box.crop bbox).empty = false
        · rw [if_pos hm]
          rw [meets_iff] at hm
          norm_num [hij, hu, hm]
          omega
        · rw [if_neg hm]
          rw [meets_iff, not_not] at hm
          by_cases hh : e.handle = none
          · rw [if_pos hh]
            norm_num [hij, hu, hm, Mgr.handle, hj, hh]
          · exact absurd ⟨e, hj, hh, by omega, hm⟩ h

theorem handle_close (s : Mgr) (m j : Nat) : (s.close m).handle j = if j = m then none else s.handle j := by
  unfold Mgr.handle Mgr.close
  dsimp only
  rw [List.getElem?_modify]
  by_cases h : j = m
  · subst h; cases s.files[j]? <;> simp
  · rw [if_neg h]; cases s.files[j]? <;> simp [Ne.symm h]

theorem handle_open (s : Mgr) (i j : Nat) (hi : i < s.files.length) : (s.open i).handle j = if j = i then some s.next else s.handle j := by
  unfold Mgr.handle Mgr.open
  dsimp only
  rw [List.getElem?_modify]
  by_cases h : j = i
  · subst h; rw [List.getElem?_eq_getElem hi]; simp
  · rw [if_neg h]; cases s.files[j]? <;> simp [Ne.symm h]

/-- The index that is looked at for closing. -/
noncomputable def pick (s : Mgr) (i : Nat) (bbox : Box ℝ 2) : Nat := maxIndex ((s.bump i).files.map (rank bbox))

theorem pick_spec (s : Mgr) (i : Nat) (bbox : Box ℝ 2) (hi : i < s.files.length) :
    pick s i bbox < s.files.length ∧ (∀ j < s.files.length, rk s i bbox j ≤ rk s i bbox (pick s i bbox)) ∧
    (∀ j < pick s i bbox, rk s i bbox j < rk s i bbox (pick s i bbox)) := by
  have := maxIndex_spec ((s.bump i).files.map (rank bbox)) (by
    intro h
    have := congrArg List.length h
    rw [List.length_map, bump_length] at this
    simp at this
    rw [this] at hi
    simp at hi)
  rw [List.length_map, bump_length] at this
  exact this

theorem get_closed (s : Mgr) (i : Nat) (bbox : Box ℝ 2) (ok : Bool) (h : s.handle i = none) : s.get i bbox ok =
    if rk s i bbox (pick s i bbox) = 0 then (s.bump i, .noneFree)
    else match s.handle (pick s i bbox) with
      | none => (s.bump i, .notOpen)
      | some _ =>
        if ok then (((s.bump i).close (pick s i bbox)).open i, .handle s.next) else ((s.bump i).close (pick s i bbox), .openFailed) := by
  rw [get_eq, h]
  rfl

/-- The state after image `m` was closed and image `i` was opened. -/
theorem swap_handles (s : Mgr) (i m j : Nat) (hi : i < s.files.length) :
    (((s.bump i).close m).open i).handle j = if j = i then some s.next else if j = m then none else s.handle j := by
  rw [handle_open _ _ _ (by unfold Mgr.close; simp [bump_length, hi]), handle_close, bump_handle]
  rfl

/-! ### Which image is closed -/

/-- **C118.**  A file that is open is returned, and no handle changes. -/
theorem get_open (s : Mgr) (i h : Nat) (bbox : Box ℝ 2) (ok : Bool) (ho : s.handle i = some h) :
    (s.get i bbox ok).2 = .handle h ∧ ∀ j, (s.get i bbox ok).1.handle j = s.handle j := by
  rw [get_eq, ho]
  exact ⟨rfl, bump_handle s i⟩

/-- **C118.**  If some open image is unused and shows nothing of the box, then the one of these whose centre is the furthest is
closed, and the wanted one is opened. -/
theorem get_far (s : Mgr) (i : Nat) (bbox : Box ℝ 2) (hi : i < s.files.length) (hc : s.handle i = none)
    (hs : ∃ j, Spare s bbox j) :
    ∃ m, Spare s bbox m ∧ (∀ j, Spare s bbox j → awayOf s bbox j ≤ awayOf s bbox m) ∧
      (s.get i bbox true).2 = .handle s.next ∧
      (∀ j, (s.get i bbox true).1.handle j = if j = i then some s.next else if j = m then none else s.handle j) ∧
      (s.get i bbox false).2 = .openFailed ∧ ∀ j, (s.get i bbox false).1.handle j = if j = m then none else s.handle j := by
  obtain ⟨p1, p2, p3⟩ := pick_spec s i bbox hi
  have hlt : ∀ j, Spare s bbox j → j < s.files.length := by
    rintro j ⟨e, h, -⟩
    exact (List.getElem?_eq_some_iff.1 h).1
  have hsp : Spare s bbox (pick s i bbox) := by
    by_contra hn
    obtain ⟨j, hj⟩ := hs
    have h1 := (spare_rk s i j bbox hc hj).2.2
    have h2 := (not_spare_rk s i (pick s i bbox) bbox hn).1
    have h3 := p2 j (hlt j hj)
    norm_num at h2
    linarith
  obtain ⟨s1, s2, s3⟩ := spare_rk s i _ bbox hc hsp
  refine ⟨pick s i bbox, hsp, ?_, ?_⟩
  · intro j hj
    have h1 := (spare_rk s i j bbox hc hj).2.1
    have h3 := p2 j (hlt j hj)
    linarith
  · obtain ⟨e, h1, h2, -, -⟩ := hsp
    have hh : ∃ h, s.handle (pick s i bbox) = some h := by
      unfold Mgr.handle
      rw [h1]
      exact Option.ne_none_iff_exists'.1 h2
    obtain ⟨h, hh⟩ := hh
    have hne : ¬ rk s i bbox (pick s i bbox) = 0 := by linarith
    refine ⟨?_, ?_, ?_, ?_⟩
    · rw [get_closed s i bbox true hc, if_neg hne, hh]; rfl
    · intro j
      rw [get_closed s i bbox true hc, if_neg hne, hh]
      exact swap_handles s i _ j hi
    · rw [get_closed s i bbox false hc, if_neg hne, hh]; rfl
    · intro j
      rw [get_closed s i bbox false hc, if_neg hne, hh]
      show ((s.bump i).close _).handle j = _
      rw [handle_close, bump_handle]

/-- Image `c` is unused and shows a part of the box, and it is the first such image other than `i`. -/
def FirstNear (s : Mgr) (i : Nat) (bbox : Box ℝ 2) (c : Nat) : Prop :=
  (c ≠ i ∧ ∃ e, s.files[c]? = some e ∧ e.used = 0 ∧ ¬ Apart e.box bbox) ∧
  ∀ j < c, ¬ (j ≠ i ∧ ∃ e, s.files[j]? = some e ∧ e.used = 0 ∧ ¬ Apart e.box bbox)

/-- **C118.**  If there is none, then the first unused image that shows a part of the box is looked at: it is closed if it is
open, but if it is already closed the call fails, whether or not another one could be closed. -/
theorem get_near (s : Mgr) (i c : Nat) (bbox : Box ℝ 2) (hi : i < s.files.length) (hc : s.handle i = none)
    (hs : ¬ ∃ j, Spare s bbox j) (hf : FirstNear s i bbox c) :
    (s.handle c = none → s.get i bbox true = (s.bump i, .notOpen)) ∧
    (s.handle c ≠ none → (s.get i bbox true).2 = .handle s.next ∧
      ∀ j, (s.get i bbox true).1.handle j = if j = i then some s.next else if j = c then none else s.handle j) := by
  obtain ⟨p1, p2, p3⟩ := pick_spec s i bbox hi
  have hns : ∀ j, ¬ Spare s bbox j := fun j h => hs ⟨j, h⟩
  obtain ⟨⟨f1, e, f2, f3, f4⟩, f5⟩ := hf
  have hclt : c < s.files.length := (List.getElem?_eq_some_iff.1 f2).1
  have hrc : rk s i bbox c = 1.5 := (not_spare_rk s i c bbox (hns c)).2.1.2 ⟨Ne.symm f1, e, f2, f3, f4⟩
  have hrp : rk s i bbox (pick s i bbox) = 1.5 := le_antisymm (not_spare_rk s i _ bbox (hns _)).1 (by rw [← hrc]; exact p2 c hclt)
  have hpc : pick s i bbox = c := by
    rcases Nat.lt_trichotomy (pick s i bbox) c with h | h | h
    · exact absurd (by
        obtain ⟨a, b⟩ := (not_spare_rk s i _ bbox (hns _)).2.1.1 hrp
        exact ⟨Ne.symm a, b⟩) (f5 _ h)
    · exact h
    · have := p3 c h
      rw [hrc, hrp] at this
      exact absurd this (lt_irrefl _)
  have hne : ¬ rk s i bbox (pick s i bbox) = 0 := by rw [hrp]; norm_num
  constructor
  · intro h
    rw [get_closed s i bbox true hc, if_neg hne, hpc, h]
  · intro h
    obtain ⟨k, hk⟩ := Option.ne_none_iff_exists'.1 h
    constructor
    · rw [get_closed s i bbox true hc, if_neg hne, hpc, hk]; rfl
    · intro j
      rw [get_closed s i bbox true hc, if_neg hne, hpc, hk]
      exact swap_handles s i _ j hi

/-- **C118.**  If no open image is unused, the call fails and nothing is closed. -/
theorem get_fails (s : Mgr) (i : Nat) (bbox : Box ℝ 2) (ok : Bool) (hc : s.handle i = none) (hs : ¬ ∃ j, Idle s j) :
    s.get i bbox ok = (s.bump i, .noneFree) ∨ s.get i bbox ok = (s.bump i, .notOpen) := by
  have hns : ∀ j, ¬ Spare s bbox j := by
    rintro j ⟨e, h1, h2, h3, -⟩
    exact hs ⟨j, e, h1, h2, h3⟩
  rw [get_closed s i bbox ok hc]
  by_cases h0 : rk s i bbox (pick s i bbox) = 0
  · rw [if_pos h0]; exact Or.inl rfl
  · rw [if_neg h0]
    have hh : s.handle (pick s i bbox) = none := by
      obtain ⟨-, n2, n3, -, n4, n5⟩ := not_spare_rk s i _ bbox (hns (pick s i bbox))
      rcases n5 with h | h | h
      · exact absurd h h0
      · exact n4 h
      · by_contra hn
        obtain ⟨-, e, h1, h2, -⟩ := n2.1 h
        refine hs ⟨pick s i bbox, e, h1, ?_, h2⟩
        intro hh
        apply hn
        unfold Mgr.handle
        rw [h1]
        exact hh
    rw [hh]
    exact Or.inr rfl

end Verif.FileIO
