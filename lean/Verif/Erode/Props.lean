import Verif.Erode.Model
import Verif.Blob.Rle
import Mathlib.Data.List.GetD
import Mathlib.Tactic.ByContra

/-! An image with blobs masked out (C136). -/

namespace VW.Erode
open VW.Blob (Compressed decompress mem_decompress)

/-! ### Specification -/

/-- All runs of the blob have at least one pixel. -/
def Runs (b : Compressed) : Prop := ∀ r ∈ b.rows, ∀ s ∈ r, s.1 < s.2

/-- All rows of the blob are rows of an image with `h` rows. -/
def RowsIn (h : Nat) (b : Compressed) : Prop := b.rows = [] ∨ (0 ≤ b.minY ∧ b.minY + b.rows.length ≤ h)

/-- The pixel is masked. -/
def Masked (data : List (List Seg)) (i j : Int) : Prop := pixel data (fun _ _ => ()) i j = none

/-! ### Rows -/

/-- The columns of a row's segments. -/
def Cov (l : List Seg) (x : Int) : Prop := ∃ o ∈ l, o.2 ≤ x ∧ x ≤ o.1

/-- Segments in order, none of them empty, with at least one pixel between them. -/
def Inv (l : List Seg) : Prop := l.Pairwise (fun a b => a.1 + 1 < b.2) ∧ ∀ o ∈ l, o.2 ≤ o.1

theorem Cov.cons {o : Seg} {l : List Seg} {x : Int} : Cov (o :: l) x ↔ (o.2 ≤ x ∧ x ≤ o.1) ∨ Cov l x := by
  unfold Cov; simp

theorem Cov.app {l m : List Seg} {x : Int} : Cov (l ++ m) x ↔ Cov l x ∨ Cov m x := by
  unfold Cov; simp only [List.mem_append]
  constructor
  · rintro ⟨o, h | h, k⟩
    · exact Or.inl ⟨o, h, k⟩
    · exact Or.inr ⟨o, h, k⟩
  · rintro (⟨o, h, k⟩ | ⟨o, h, k⟩)
    · exact ⟨o, Or.inl h, k⟩
    · exact ⟨o, Or.inr h, k⟩

theorem Inv.sub {l m : List Seg} (h : Inv m) (hs : l.Sublist m) : Inv l := ⟨h.1.sublist hs, fun o ho => h.2 o (hs.subset ho)⟩

/-- If an entry has a gap to everything that makes up an interval, it has a gap to the interval. -/
theorem gap_of {o : Seg} {st en : Int} (ho : o.2 ≤ o.1) (hse : st ≤ en) (h : ∀ x, st ≤ x → x ≤ en → x + 1 < o.2 ∨ o.1 + 1 < x) :
    o.1 + 1 < st ∨ en + 1 < o.2 := by
  by_contra hc
  have hc1 : ¬ (o.1 + 1 < st) := fun h => hc (Or.inl h)
  have hc2 : ¬ (en + 1 < o.2) := fun h => hc (Or.inr h)
  by_cases h1 : o.2 - 1 ≤ st
  · have := h st (Int.le_refl _) hse; omega
  · have := h (o.2 - 1) (by omega) (by omega); omega

theorem merge_spec (m : List Seg) (hm : Inv m) (st en : Int) (hse : st ≤ en) :
    (∃ l, merge st en m = .skip l ∧ l.Sublist m ∧ ∀ x, Cov l x ↔ Cov m x ∨ (st ≤ x ∧ x ≤ en)) ∨
    (∃ en' st' k, merge st en m = .add en' st' k ∧ k.Sublist m ∧ st' ≤ st ∧ en ≤ en' ∧ (∀ o ∈ k, o.1 + 1 < st' ∨ en' + 1 < o.2) ∧
      ∀ x, (Cov k x ∨ (st' ≤ x ∧ x ≤ en')) ↔ Cov m x ∨ (st ≤ x ∧ x ≤ en)) := by
  induction m generalizing st en with
  | nil => exact Or.inr ⟨en, st, [], rfl, List.Sublist.refl _, Int.le_refl _, Int.le_refl _, by simp, fun x => Iff.rfl⟩
  | cons o t ih =>
    have ht : Inv t := hm.sub (List.sublist_cons_self _ _)
    have ho : o.2 ≤ o.1 := hm.2 o (by simp)
    have hot : ∀ b ∈ t, o.1 + 1 < b.2 := (List.pairwise_cons.1 hm.1).1
    unfold merge
    by_cases h1 : o.1 < st - 1 ∨ o.2 > en + 1
    · rw [if_pos h1]
      rcases ih ht st en hse with ⟨l, e, hl, hc⟩ | ⟨en', st', k, e, hk, a1, a2, hg, hc⟩
      · exact Or.inl ⟨o :: l, by rw [e]; rfl, hl.cons_cons o, fun x => by rw [Cov.cons, Cov.cons, hc, or_assoc]⟩
      · refine Or.inr ⟨en', st', o :: k, by rw [e]; rfl, hk.cons_cons o, a1, a2, fun p hp => ?_, fun x => by rw [Cov.cons, Cov.cons, or_assoc, hc, or_assoc]⟩
        rcases List.mem_cons.1 hp with rfl | hp
        · apply gap_of ho (by omega)
          intro x x1 x2
          rcases (hc x).1 (Or.inr ⟨x1, x2⟩) with ⟨b, hb, b1, b2⟩ | h
          · have := hot b hb; omega
          · omega
        · exact hg p hp
    · rw [if_neg h1]
      by_cases h2 : o.2 ≤ st ∧ o.1 ≥ en
      · rw [if_pos h2]
        refine Or.inl ⟨o :: t, rfl, List.Sublist.refl _, fun x => ⟨Or.inl, ?_⟩⟩
        rintro (h | h)
        · exact h
        · exact Cov.cons.2 (Or.inl (by omega))
      · rw [if_neg h2]
        by_cases h3 : o.2 ≥ st ∧ o.1 ≤ en
        · rw [if_pos h3]
          rcases ih ht st en hse with ⟨l, e, hl, hc⟩ | ⟨en', st', k, e, hk, a1, a2, hg, hc⟩
          · refine Or.inl ⟨l, e, hl.cons o, fun x => ?_⟩
            rw [hc, Cov.cons]
            constructor
            · rintro (h | h); exacts [Or.inl (Or.inr h), Or.inr h]
            · rintro ((h | h) | h); exacts [Or.inr (by omega), Or.inl h, Or.inr h]
          · refine Or.inr ⟨en', st', k, e, hk.cons o, a1, a2, hg, fun x => ?_⟩
            rw [hc, Cov.cons]
            constructor
            · rintro (h | h); exacts [Or.inl (Or.inr h), Or.inr h]
            · rintro ((h | h) | h); exacts [Or.inr (by omega), Or.inl h, Or.inr h]
        · rw [if_neg h3, if_pos (by omega)]
          set st1 := if o.2 < st then o.2 else st with hst1
          set en1 := if o.1 > en then o.1 else en with hen1
          have e1 : st1 = min o.2 st := by rw [hst1]; split <;> omega
          have e2 : en1 = max o.1 en := by rw [hen1]; split <;> omega
          rcases ih ht st1 en1 (by omega) with ⟨l, e, hl, hc⟩ | ⟨en', st', k, e, hk, a1, a2, hg, hc⟩
          · refine Or.inl ⟨l, e, hl.cons o, fun x => ?_⟩
            rw [hc, Cov.cons]
            constructor
            · rintro (h | h)
              · exact Or.inl (Or.inr h)
              · by_cases hx : st ≤ x ∧ x ≤ en
                · exact Or.inr hx
                · exact Or.inl (Or.inl (by omega))
            · rintro ((h | h) | h); exacts [Or.inr (by omega), Or.inl h, Or.inr (by omega)]
          · refine Or.inr ⟨en', st', k, e, hk.cons o, by omega, by omega, hg, fun x => ?_⟩
            rw [hc, Cov.cons]
            constructor
            · rintro (h | h)
              · exact Or.inl (Or.inr h)
              · by_cases hx : st ≤ x ∧ x ≤ en
                · exact Or.inr hx
                · exact Or.inl (Or.inl (by omega))
            · rintro ((h | h) | h); exacts [Or.inr (by omega), Or.inl h, Or.inr (by omega)]

/-- Insertion where there is room. -/
theorem insertKey_spec (k : Seg) (hk : k.2 ≤ k.1) (l : List Seg) (hl : Inv l) (hg : ∀ o ∈ l, o.1 + 1 < k.2 ∨ k.1 + 1 < o.2) :
    Inv (insertKey k l) ∧ (∀ o, o ∈ insertKey k l ↔ o = k ∨ o ∈ l) := by
  induction l with
  | nil => exact ⟨⟨List.pairwise_singleton _ _, by simpa [insertKey] using hk⟩, by simp [insertKey]⟩
  | cons h t ih =>
    have ht : Inv t := hl.sub (List.sublist_cons_self _ _)
    have hh : h.2 ≤ h.1 := hl.2 h (by simp)
    have hht := (List.pairwise_cons.1 hl.1).1
    have g := hg h (by simp)
    obtain ⟨i1, i2⟩ := ih ht (fun o ho => hg o (by simp [ho]))
    unfold insertKey
    by_cases c1 : k.1 < h.1
    · rw [if_pos c1]
      refine ⟨⟨List.pairwise_cons.2 ⟨fun b hb => ?_, hl.1⟩, fun o ho => ?_⟩, fun o => by simp⟩
      · rcases List.mem_cons.1 hb with rfl | hb
        · omega
        · have := hht b hb; omega
      · rcases List.mem_cons.1 ho with rfl | ho
        · exact hk
        · exact hl.2 o ho
    · rw [if_neg c1, if_neg (by omega)]
      refine ⟨⟨List.pairwise_cons.2 ⟨fun b hb => ?_, i1.1⟩, fun o ho => ?_⟩, fun o => ?_⟩
      · rcases (i2 b).1 hb with rfl | hb
        · omega
        · exact hht b hb
      · rcases List.mem_cons.1 ho with rfl | ho
        · exact hh
        · exact i1.2 o ho
      · rw [List.mem_cons, i2, List.mem_cons]; tauto

theorem takeWhile_mem {p : Seg → Bool} {l : List Seg} {o : Seg} (h : o ∈ l.takeWhile p) : p o = true := by
  induction l with
  | nil => simp at h
  | cons a t ih =>
    by_cases hp : p a
    · rw [List.takeWhile_cons_of_pos hp] at h
      rcases List.mem_cons.1 h with rfl | h
      · exact hp
      · exact ih h
    · rw [List.takeWhile_cons_of_neg hp] at h; simp at h

/-- A segment is added to a row. -/
theorem addSeg_spec (row : List Seg) (hr : Inv row) (st en : Int) (hse : st ≤ en) :
    ∃ r, addSeg row st en = some r ∧ Inv r ∧ ∀ x, Cov r x ↔ Cov row x ∨ (st ≤ x ∧ x ≤ en) := by
  set before := row.takeWhile (fun o => o.1 < st - 1) with hbefore
  set rest := row.dropWhile (fun o => o.1 < st - 1) with hrest
  set low := rest.takeWhile (fun o => o.1 < en) with hlow
  set high := rest.dropWhile (fun o => o.1 < en) with hhigh
  have e1 : row = before ++ ((low ++ high.take 1) ++ high.drop 1) := by
    rw [List.append_assoc, List.take_append_drop, hlow, hhigh, List.takeWhile_append_dropWhile, hbefore, hrest, List.takeWhile_append_dropWhile]
  have hmid : Inv (low ++ high.take 1) := hr.sub (by
    rw [e1]; exact (List.sublist_append_left _ _).trans (List.sublist_append_right _ _))
  have hP := hr.1
  rw [e1, List.pairwise_append, List.pairwise_append] at hP
  obtain ⟨-, ⟨-, -, hMA⟩, hBX⟩ := hP
  have hnon : ∀ o, o ∈ before ∨ o ∈ high.drop 1 → o ∈ row := by
    intro o ho
    rw [e1]
    simp only [List.mem_append]
    rcases ho with h | h
    · exact Or.inl h
    · exact Or.inr (Or.inr h)
  -- what is before and after has a gap to the new segment and to what is between
  have hgap : ∀ o, o ∈ before ∨ o ∈ high.drop 1 → ∀ x, Cov (low ++ high.take 1) x ∨ (st ≤ x ∧ x ≤ en) → x + 1 < o.2 ∨ o.1 + 1 < x := by
    rintro o ho x hx
    have hoo := hr.2 o (hnon o ho)
    rcases ho with ho | ho
    · rcases hx with ⟨b, hb, b1, b2⟩ | hx
      · have := hBX o ho b (List.mem_append_left _ hb); omega
      · have := takeWhile_mem ho
        simp only [decide_eq_true_eq] at this
        omega
    · rcases hx with ⟨b, hb, b1, b2⟩ | hx
      · have := hMA b hb o ho; omega
      · cases hh : high with
        | nil => rw [hh] at ho; simp at ho
        | cons n t =>
          have hn : ¬ (n.1 < en) := by
            have : high.head? = some n := by rw [hh]; rfl
            rw [hhigh] at this
            have hd := List.head?_dropWhile_not (fun o : Seg => decide (o.1 < en)) rest
            rw [this] at hd
            simpa using hd
          have := hMA n (List.mem_append_right _ (by rw [hh]; simp)) o ho
          omega
  have hcov : ∀ x, Cov row x ↔ Cov before x ∨ Cov (low ++ high.take 1) x ∨ Cov (high.drop 1) x := by
    intro x; rw [e1, Cov.app, Cov.app]
  have hsub : ∀ l : List Seg, l.Sublist (low ++ high.take 1) → (before ++ l ++ high.drop 1).Sublist row := by
    intro l hl
    have := (List.Sublist.refl before).append (hl.append (List.Sublist.refl (high.drop 1)))
    rw [← e1, ← List.append_assoc] at this
    exact this
  have hdef : addSeg row st en = match merge st en (low ++ high.take 1) with
      | .skip l => some (before ++ l ++ high.drop 1)
      | .add en' st' k => some (insertKey (en', st') (before ++ k ++ high.drop 1))
      | .fail => none := rfl
  rw [hdef]
  rcases merge_spec _ hmid st en hse with ⟨l, e, hl, hc⟩ | ⟨en', st', k, e, hk, a1, a2, hg, hc⟩
  · rw [e]
    refine ⟨_, rfl, hr.sub (hsub _ hl), fun x => ?_⟩
    · rw [Cov.app, Cov.app, hc, hcov]; tauto
  · rw [e]
    obtain ⟨s1, s2⟩ := insertKey_spec (en', st') (by show st' ≤ en'; omega) _ (hr.sub (hsub _ hk)) (fun o ho => by
      simp only [List.mem_append] at ho
      have G : (o ∈ before ∨ o ∈ high.drop 1) → o.1 + 1 < st' ∨ en' + 1 < o.2 := fun h =>
        gap_of (hr.2 o (hnon o h)) (by omega) (fun x x1 x2 => hgap o h x ((hc x).1 (Or.inr ⟨x1, x2⟩)))
      rcases ho with (h | h) | h
      · exact G (Or.inl h)
      · exact hg o h
      · exact G (Or.inr h))
    refine ⟨_, rfl, s1, fun x => ?_⟩
    have : Cov (insertKey (en', st') (before ++ k ++ high.drop 1)) x ↔ (st' ≤ x ∧ x ≤ en') ∨ Cov (before ++ k ++ high.drop 1) x := by
      unfold Cov
      constructor
      · rintro ⟨o, ho, h⟩
        rcases (s2 o).1 ho with ho | ho
        · rw [ho] at h; exact Or.inl h
        · exact Or.inr ⟨o, ho, h⟩
      · rintro (h | ⟨o, ho, h⟩)
        · exact ⟨_, (s2 _).2 (Or.inl rfl), h⟩
        · exact ⟨o, (s2 o).2 (Or.inr ho), h⟩
    rw [this, Cov.app, Cov.app, hcov]
    have h5 := hc x
    clear_value before rest low high
    generalize Cov before x = A, Cov k x = B, Cov (List.drop 1 high) x = C, Cov (low ++ List.take 1 high) x = D at *
    constructor
    · rintro (h | (h | h) | h)
      · rcases h5.1 (Or.inr h) with h | h; exacts [Or.inl (Or.inr (Or.inl h)), Or.inr h]
      · exact Or.inl (Or.inl h)
      · rcases h5.1 (Or.inl h) with h | h; exacts [Or.inl (Or.inr (Or.inl h)), Or.inr h]
      · exact Or.inl (Or.inr (Or.inr h))
    · rintro ((h | h | h) | h)
      · exact Or.inr (Or.inl (Or.inl h))
      · rcases h5.2 (Or.inl h) with h | h; exacts [Or.inr (Or.inl (Or.inr h)), Or.inl h]
      · exact Or.inr (Or.inr h)
      · rcases h5.2 (Or.inr h) with h | h; exacts [Or.inr (Or.inl (Or.inr h)), Or.inl h]

theorem addRow_spec (minX : Int) (segs : List (Int × Int)) (hs : ∀ s ∈ segs, s.1 < s.2) (row : List Seg) (hr : Inv row) :
    ∃ r, addRow row minX segs = some r ∧ Inv r ∧ ∀ x, Cov r x ↔ Cov row x ∨ ∃ s ∈ segs, minX + s.1 ≤ x ∧ x < minX + s.2 := by
  induction segs generalizing row with
  | nil => exact ⟨row, rfl, hr, by simp⟩
  | cons s t ih =>
    have h0 := hs s (by simp)
    obtain ⟨r, e, hr', hc⟩ := addSeg_spec row hr (s.1 + minX) (s.2 + minX - 1) (by omega)
    obtain ⟨r', e', hr'', hc'⟩ := ih (fun s hs' => hs s (by simp [hs'])) r hr'
    refine ⟨r', by unfold addRow; rw [e]; exact e', hr'', fun x => ?_⟩
    rw [hc', hc]
    constructor
    · rintro ((h | h) | ⟨s', hs', h⟩)
      · exact Or.inl h
      · exact Or.inr ⟨s, by simp, by omega⟩
      · exact Or.inr ⟨s', by simp [hs'], h⟩
    · rintro (h | ⟨s', hs', h⟩)
      · exact Or.inl (Or.inl h)
      · rcases List.mem_cons.1 hs' with rfl | hs'
        · exact Or.inl (Or.inr (by omega))
        · exact Or.inr ⟨s', hs', h⟩

/-- A mask as the class builds it. -/
def Ok (data : List (List Seg)) : Prop := ∀ j : Nat, Inv (data.getD j [])

theorem getD_set (data : List (List Seg)) (i j : Nat) (r : List Seg) (hi : i < data.length) :
    (data.set i r).getD j [] = if i = j then r else data.getD j [] := by
  rw [List.getD_eq_getElem?_getD, List.getElem?_set, List.getD_eq_getElem?_getD]
  by_cases h : i = j
  · subst h; simp [hi]
  · simp [h]

theorem absorbRows_spec (minX : Int) (rows : List (List (Int × Int))) (hs : ∀ r ∈ rows, ∀ s ∈ r, s.1 < s.2) (y : Int) (data : List (List Seg))
    (hd : Ok data) :
    (absorbRows data minX y rows).rows.length = data.length ∧ Ok (absorbRows data minX y rows).rows ∧
      ((absorbRows data minX y rows).ok = true ↔ rows = [] ∨ (0 ≤ y ∧ y + rows.length ≤ data.length)) ∧
      (∀ (j : Nat) (x : Int), Cov (data.getD j []) x → Cov ((absorbRows data minX y rows).rows.getD j []) x) ∧
      (∀ (j : Nat) (x : Int), Cov ((absorbRows data minX y rows).rows.getD j []) x → Cov (data.getD j []) x ∨ (x, (j : Int)) ∈ VW.Blob.rowsPlaces minX y rows) ∧
      ((absorbRows data minX y rows).ok = true → ∀ (j : Nat) (x : Int), (x, (j : Int)) ∈ VW.Blob.rowsPlaces minX y rows →
        Cov ((absorbRows data minX y rows).rows.getD j []) x) := by
  induction rows generalizing y data with
  | nil => exact ⟨rfl, hd, by simp [absorbRows], fun j x h => h, fun j x h => Or.inl h, fun _ j x h => by simp [VW.Blob.rowsPlaces] at h⟩
  | cons r rs ih =>
    unfold absorbRows
    by_cases hy : y < 0 ∨ y ≥ data.length
    · rw [if_pos hy]
      refine ⟨rfl, hd, ?_, fun j x h => h, fun j x h => Or.inl h, fun h => by simp at h⟩
      simp only [List.length_cons]
      constructor
      · intro h; cases h
      · rintro (h | h)
        · cases h
        · omega
    · rw [if_neg hy]
      have hyn : y.toNat < data.length := by omega
      obtain ⟨row, e, hrow, hc⟩ := addRow_spec minX r (hs r (by simp)) (data.getD y.toNat []) (hd _)
      rw [e]
      have hset : Ok (data.set y.toNat row) := by
        intro j
        rw [getD_set _ _ _ _ hyn]
        split
        · exact hrow
        · exact hd j
      obtain ⟨i1, i2, i3, i4, i5, i6⟩ := ih (fun r hr => hs r (by simp [hr])) (y + 1) (data.set y.toNat row) hset
      rw [List.length_set] at i1 i3
      have M : ∀ (j : Nat) (x : Int), (x, (j : Int)) ∈ VW.Blob.rowsPlaces minX y (r :: rs) ↔
          ((j : Int) = y ∧ ∃ s ∈ r, minX + s.1 ≤ x ∧ x < minX + s.2) ∨ (x, (j : Int)) ∈ VW.Blob.rowsPlaces minX (y + 1) rs := by
        intro j x
        simp only [VW.Blob.rowsPlaces, List.mem_append, VW.Blob.rowPlaces, List.mem_flatMap, VW.Blob.mem_runPlaces]
        constructor
        · rintro (⟨s, h1, h2⟩ | h)
          · exact Or.inl ⟨by simpa using h2.1, s, h1, by simpa using h2.2⟩
          · exact Or.inr h
        · rintro (⟨h1, s, h2, h3⟩ | h)
          · exact Or.inl ⟨s, h2, by simpa using h1, by simpa using h3⟩
          · exact Or.inr h
      refine ⟨i1, i2, ?_, fun j x h => i4 j x ?_, fun j x h => ?_, fun hok j x h => ?_⟩
      · rw [i3]
        simp only [List.length_cons]
        constructor
        · rintro (h | h)
          · subst h; exact Or.inr ⟨by omega, by simp; omega⟩
          · exact Or.inr ⟨by omega, by omega⟩
        · rintro (h | h)
          · cases h
          · exact Or.inr ⟨by omega, by omega⟩
      · rw [getD_set _ _ _ _ hyn]
        split
        · rename_i hj; subst hj; exact (hc x).2 (Or.inl h)
        · exact h
      · rw [M]
        rcases i5 j x h with h' | h
        · clear h
          rw [getD_set _ _ _ _ hyn] at h'
          rename' h' => h
          by_cases hj : y.toNat = j
          · rw [if_pos hj] at h
            subst hj
            rcases (hc x).1 h with h | h
            · exact Or.inl h
            · exact Or.inr (Or.inl ⟨by omega, h⟩)
          · rw [if_neg hj] at h
            exact Or.inl h
        · exact Or.inr (Or.inr h)
      · rcases (M j x).1 h with ⟨h1, h2⟩ | h
        · apply i4
          rw [getD_set _ _ _ _ hyn, if_pos (by omega)]
          exact (hc x).2 (Or.inr h2)
        · exact i6 hok j x h

/-- The mask of a row as `operator()` reads it. -/
theorem masked_iff {data : List (List Seg)} (hd : Ok data) (i j : Int) : Masked data i j ↔ Cov (data.getD j.toNat []) i := by
  have key : ∀ l : List Seg, Inv l → ((match l.find? (fun o => o.1 ≥ i) with
      | some o => if i < o.2 then some () else none
      | none => some ()) = none ↔ Cov l i) := by
    intro l
    induction l with
    | nil => intro _; simp [Cov]
    | cons o t ih =>
      intro h
      have ht : Inv t := h.sub (List.sublist_cons_self _ _)
      have hot := (List.pairwise_cons.1 h.1).1
      have ho := h.2 o (by simp)
      rw [Cov.cons]
      by_cases h1 : o.1 ≥ i
      · rw [List.find?_cons_of_pos (by simpa using h1)]
        simp only []
        by_cases h2 : i < o.2
        · rw [if_pos h2]
          refine ⟨fun h => (by cases h), ?_⟩
          rintro (h | ⟨b, hb, h⟩)
          · omega
          · have := hot b hb; omega
        · rw [if_neg h2]
          exact ⟨fun _ => Or.inl (by omega), fun _ => rfl⟩
      · rw [List.find?_cons_of_neg (by simpa using h1), ih ht]
        exact ⟨Or.inr, fun h => h.resolve_left (by omega)⟩
  exact key _ (hd _)

/-! ### The theorems -/

/-- **C136 (pixels).** A pixel of the view is the one of the image, or it is masked; that does not depend on the image. -/
theorem pixel_eq {α : Type} (data : List (List Seg)) (img : Int → Int → α) (i j : Int) :
    (Masked data i j → pixel data img i j = none) ∧ (¬ Masked data i j → pixel data img i j = some (img i j)) := by
  unfold Masked pixel
  cases (data.getD j.toNat []).find? (fun o => o.1 ≥ i) with
  | none => simp
  | some o =>
    simp only []
    by_cases h : i < o.2
    · rw [if_pos h, if_pos h]; simp
    · rw [if_neg h, if_neg h]; simp

theorem absorbAll_spec (bs : List Compressed) (hs : ∀ b ∈ bs, Runs b) (data : List (List Seg)) (hd : Ok data) :
    (absorbAll data bs).rows.length = data.length ∧ Ok (absorbAll data bs).rows ∧
      ((absorbAll data bs).ok = true ↔ ∀ b ∈ bs, RowsIn data.length b) ∧
      (∀ (i j : Int), 0 ≤ j → Masked data i j → Masked (absorbAll data bs).rows i j) ∧
      (∀ (i j : Int), 0 ≤ j → Masked (absorbAll data bs).rows i j → Masked data i j ∨ ∃ b ∈ bs, (i, j) ∈ decompress b) ∧
      ((absorbAll data bs).ok = true → ∀ (i j : Int), 0 ≤ j → (∃ b ∈ bs, (i, j) ∈ decompress b) → Masked (absorbAll data bs).rows i j) := by
  induction bs generalizing data with
  | nil => exact ⟨rfl, hd, by simp [absorbAll], fun i j _ h => h, fun i j _ h => Or.inl h, fun _ i j _ h => by simp at h⟩
  | cons b bs ih =>
    obtain ⟨a1, a2, a3, a4, a5, a6⟩ := absorbRows_spec b.minX b.rows (hs b (by simp)) b.minY data hd
    have A4 : ∀ (i j : Int), 0 ≤ j → Masked data i j → Masked (absorb data b).rows i j := by
      intro i j _ h
      rw [masked_iff hd] at h
      exact (masked_iff a2 i j).2 (a4 _ _ h)
    have A5 : ∀ (i j : Int), 0 ≤ j → Masked (absorb data b).rows i j → Masked data i j ∨ (i, j) ∈ decompress b := by
      intro i j hj h
      rcases a5 _ _ ((masked_iff a2 i j).1 h) with h | h
      · exact Or.inl ((masked_iff hd i j).2 h)
      · rw [Int.toNat_of_nonneg hj] at h; exact Or.inr h
    have A6 : (absorb data b).ok = true → ∀ (i j : Int), 0 ≤ j → (i, j) ∈ decompress b → Masked (absorb data b).rows i j := by
      intro hok i j hj h
      refine (masked_iff a2 i j).2 (a6 hok _ _ ?_)
      rw [Int.toNat_of_nonneg hj]; exact h
    have A1 : (absorb data b).rows.length = data.length := a1
    unfold absorbAll
    by_cases hok : (absorb data b).ok = true
    · rw [if_pos hok]
      obtain ⟨i1, i2, i3, i4, i5, i6⟩ := ih (fun b hb => hs b (by simp [hb])) (absorb data b).rows a2
      rw [A1] at i1 i3
      refine ⟨i1, i2, ?_, fun i j hj h => i4 i j hj (A4 i j hj h), fun i j hj h => ?_, fun h i j hj hb => ?_⟩
      · rw [i3]
        simp only [List.mem_cons, forall_eq_or_imp]
        exact ⟨fun h => ⟨a3.1 hok, h⟩, fun h => h.2⟩
      · rcases i5 i j hj h with h | ⟨c, hc, h⟩
        · rcases A5 i j hj h with h | h
          · exact Or.inl h
          · exact Or.inr ⟨b, by simp, h⟩
        · exact Or.inr ⟨c, by simp [hc], h⟩
      · obtain ⟨c, hc, h'⟩ := hb
        rcases List.mem_cons.1 hc with rfl | hc
        · exact i4 i j hj (A6 hok i j hj h')
        · exact i6 h i j hj ⟨c, hc, h'⟩
    · rw [if_neg hok]
      refine ⟨A1, a2, ?_, A4, fun i j hj h => ?_, fun h => absurd h hok⟩
      · constructor
        · intro h; exact absurd h hok
        · intro h
          exact absurd (a3.2 (h b (by simp))) hok
      · rcases A5 i j hj h with h | h
        · exact Or.inl h
        · exact Or.inr ⟨b, by simp, h⟩

theorem ok_replicate (h : Nat) : Ok (List.replicate h []) := by
  intro j
  have : (List.replicate h ([] : List Seg)).getD j [] = [] := by
    rw [List.getD_eq_getElem?_getD, List.getElem?_replicate]; split <;> rfl
  rw [this]
  exact ⟨List.Pairwise.nil, by simp⟩

/-- **C136 (the mask).** A view made from blobs with runs that are not empty: it throws exactly if a blob has a row that is not one of the image;
else the pixels masked are exactly those of the blobs, in whatever order the blobs overlap, touch or repeat. -/
theorem create_spec (h : Nat) (bs : List Compressed) (hs : ∀ b ∈ bs, Runs b) :
    ((create h bs).ok = true ↔ ∀ b ∈ bs, RowsIn h b) ∧
      ((create h bs).ok = true → ∀ i j : Int, 0 ≤ j → (Masked (create h bs).rows i j ↔ ∃ b ∈ bs, (i, j) ∈ decompress b)) := by
  obtain ⟨-, -, a3, -, a5, a6⟩ := absorbAll_spec bs hs (List.replicate h []) (ok_replicate h)
  rw [List.length_replicate] at a3
  refine ⟨a3, fun hok i j hj => ⟨fun hm => ?_, a6 hok i j hj⟩⟩
  rcases a5 i j hj hm with hm | hm
  · rw [masked_iff (ok_replicate h)] at hm
    obtain ⟨o, ho, -⟩ := hm
    have : (List.replicate h ([] : List Seg)).getD j.toNat [] = [] := by
      rw [List.getD_eq_getElem?_getD, List.getElem?_replicate]; split <;> rfl
    rw [this] at ho; simp at ho
  · exact hm

/-- A mask made by a history of calls of `absorb`, some of which may have thrown. -/
inductive Reach (h : Nat) : List (List Seg) → List Compressed → Prop
  | init : Reach h (List.replicate h []) []
  | absorb {data : List (List Seg)} {all : List Compressed} (bs : List Compressed) : Reach h data all → (∀ b ∈ bs, Runs b) →
      Reach h (absorbAll data bs).rows (all ++ bs)

/-- **C136 (histories).** After any history of calls of `absorb`, whether they threw or not, no pixel is masked that is not one of a blob given,
and a pixel masked once stays so. In every row the segments are in order, with at least one pixel between them. -/
theorem history_spec {h : Nat} {data : List (List Seg)} {all : List Compressed} (hr : Reach h data all) :
    Ok data ∧ data.length = h ∧ (∀ i j : Int, 0 ≤ j → Masked data i j → ∃ b ∈ all, (i, j) ∈ decompress b) ∧
      (∀ bs, (∀ b ∈ bs, Runs b) → ∀ i j : Int, 0 ≤ j → Masked data i j → Masked (absorbAll data bs).rows i j) ∧
      (∀ bs, (∀ b ∈ bs, Runs b) → (∀ b ∈ bs, RowsIn h b) → ∀ i j : Int, 0 ≤ j →
        (Masked (absorbAll data bs).rows i j ↔ Masked data i j ∨ ∃ b ∈ bs, (i, j) ∈ decompress b)) := by
  have main : Ok data ∧ data.length = h ∧ (∀ i j : Int, 0 ≤ j → Masked data i j → ∃ b ∈ all, (i, j) ∈ decompress b) := by
    induction hr with
    | init =>
      refine ⟨ok_replicate h, List.length_replicate, fun i j hj hm => ?_⟩
      have := ((create_spec h [] (by simp)).2 (by rfl) i j hj).1 hm
      simp at this
    | absorb bs _ hs ih =>
      obtain ⟨i1, i2, i3⟩ := ih
      obtain ⟨a1, a2, -, -, a5, -⟩ := absorbAll_spec bs hs _ i1
      refine ⟨a2, a1.trans i2, fun i j hj hm => ?_⟩
      rcases a5 i j hj hm with hm | ⟨b, hb, hm⟩
      · obtain ⟨b, hb, h⟩ := i3 i j hj hm
        exact ⟨b, List.mem_append_left _ hb, h⟩
      · exact ⟨b, List.mem_append_right _ hb, hm⟩
  obtain ⟨m1, m2, m3⟩ := main
  refine ⟨m1, m2, m3, fun bs hs => (absorbAll_spec bs hs data m1).2.2.2.1, fun bs hs hin i j hj => ?_⟩
  obtain ⟨-, -, a3, a4, a5, a6⟩ := absorbAll_spec bs hs data m1
  rw [m2] at a3
  exact ⟨a5 i j hj, fun h => h.elim (a4 i j hj) (a6 (a3.2 hin) i j hj)⟩

/-- **C136 (tiles).** Rasterized tile by tile, the view gives the same pixels. -/
theorem raster_eq {α : Type} (data : List (List Seg)) (img : Int → Int → α) (x0 y0 i j : Int) : raster data img x0 y0 i j = pixel data img i j := by
  have : hidden img x0 y0 = img := by funext i j; simp [hidden]
  unfold raster; rw [this]

/-! ### Cases -/

/-- Two blobs that touch in the second row: columns 1–2 and 3–5; a third one joins and repeats them. -/
def b1 : Compressed := ⟨1, 0, [[(0, 1)], [(0, 2)]]⟩
def b2 : Compressed := ⟨3, 1, [[(0, 3)]]⟩
def b3 : Compressed := ⟨0, 1, [[(0, 2), (7, 9)]]⟩

example : (∀ b ∈ [b1, b2, b3], Runs b) ∧ (∀ b ∈ [b1, b2, b3], RowsIn 2 b) := by
  constructor
  · intro b hb
    simp only [List.mem_cons, List.not_mem_nil, or_false] at hb
    rcases hb with rfl | rfl | rfl <;> (unfold Runs; decide)
  · intro b hb
    simp only [List.mem_cons, List.not_mem_nil, or_false] at hb
    rcases hb with rfl | rfl | rfl <;> (unfold RowsIn; decide)

example : create 2 [b1, b2, b3] = ⟨[[(1, 1)], [(5, 0), (8, 7)]], true⟩ := by decide
example : create 2 [b2, b1, b3] = ⟨[[(1, 1)], [(5, 0), (8, 7)]], true⟩ := by decide
example : create 1 [b1] = ⟨[[(1, 1)]], false⟩ := by decide
example : (List.range 10).map (fun i : Nat => pixel (create 2 [b1, b2, b3]).rows (fun x _ => x) i 1) =
    [none, none, none, none, none, none, some 6, none, none, some 9] := by decide

end VW.Erode
