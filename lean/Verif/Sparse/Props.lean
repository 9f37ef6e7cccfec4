import Verif.Sparse.Model
import Mathlib.Tactic.ByContra
import Mathlib.Tactic.SplitIfs

/-! Patches over an image (C137). -/

namespace VW.Sparse

variable {α : Type}

/-! ### Specification -/

/-- The pixel of a patch at a place of the image, if there is a valid one. -/
def patchAt (x0 : Int) (y0 : Nat) (patch : List (List (Option α))) (i : Int) (j : Nat) : Option α :=
  if x0 ≤ i ∧ y0 ≤ j then ((patch.getD (j - y0) [])[(i - x0).toNat]?).join else none

/-- The pixel stored over the image at a place, as `operator()` finds it. -/
def View.stored (v : View α) (i : Int) (j : Nat) : Option α := lookup (v.data.getD j []) i

/-- The view is the stored pixels over the image. -/
theorem View.pixel_eq (v : View α) (i : Int) (j : Nat) : v.pixel i j = (v.stored i j).getD (v.under i j) := rfl

/-! ### Rows -/

/-- The keys are in order, no strip is empty. -/
def Inv (row : List (Strip α)) : Prop := row.Pairwise (fun a b => a.1 < b.1) ∧ ∀ s ∈ row, s.2 ≠ []

theorem lookup_nil (i : Int) : lookup ([] : List (Strip α)) i = none := rfl

theorem lookup_cons (s : Strip α) (t : List (Strip α)) (i : Int) : lookup (s :: t) i = if i < s.1 then s.at i else lookup t i := by
  unfold lookup
  by_cases h : i < s.1
  · rw [List.find?_cons_of_pos (by simpa using h), if_pos h]
  · rw [List.find?_cons_of_neg (by simpa using h), if_neg h]

theorem at_some (s : Strip α) (i : Int) : (s.at i).isSome ↔ s.start ≤ i ∧ i < s.1 := by
  unfold Strip.at
  by_cases h : i < s.start
  · rw [if_pos h]; simp; omega
  · rw [if_neg h]
    unfold Strip.start at h ⊢
    by_cases hl : (i - (s.1 - (s.2.length : Int))).toNat < s.2.length
    · rw [List.getElem?_eq_getElem hl]; simp; omega
    · rw [List.getElem?_eq_none (by omega)]; simp; omega

theorem at_none (s : Strip α) (i : Int) (h : i < s.start ∨ s.1 ≤ i) : s.at i = none := by
  rw [← Option.not_isSome_iff_eq_none, at_some]; omega

theorem start_lt {s : Strip α} (h : s.2 ≠ []) : s.start < s.1 := by
  have := List.length_pos_iff.2 h
  unfold Strip.start; omega

/-- Of entries before others, the last key decides. -/
theorem lookup_append (b X : List (Strip α)) (hb : b.Pairwise (fun a b => a.1 < b.1)) (i : Int) :
    (b = [] → lookup (b ++ X) i = lookup X i) ∧
      (∀ p, b.getLast? = some p → lookup (b ++ X) i = if i < p.1 then lookup b i else lookup X i) := by
  induction b with
  | nil => exact ⟨fun _ => rfl, by simp⟩
  | cons s t ih =>
    obtain ⟨i1, i2⟩ := ih (List.pairwise_cons.1 hb).2
    refine ⟨by simp, fun p hp => ?_⟩
    rw [List.cons_append, lookup_cons, lookup_cons]
    cases t with
    | nil =>
      simp at hp
      subst hp
      rw [i1 rfl]
      split_ifs <;> rfl
    | cons a t' =>
      have hp' : (a :: t').getLast? = some p := by rw [List.getLast?_cons_cons] at hp; exact hp
      rw [i2 p hp']
      have hsp : s.1 < p.1 := (List.pairwise_cons.1 hb).1 p (List.mem_of_getLast? hp')
      by_cases h1 : i < s.1
      · rw [if_pos h1, if_pos (by omega), if_pos h1]
      · rw [if_neg h1, if_neg h1]

theorem lookup_last (b : List (Strip α)) (hb : Inv b) (p : Strip α) (hp : b.getLast? = some p) :
    (lookup b (p.1 - 1)).isSome ∧ ∀ i, p.1 ≤ i → lookup b i = none := by
  induction b with
  | nil => simp at hp
  | cons s t ih =>
    cases t with
    | nil =>
      simp at hp
      subst hp
      refine ⟨?_, fun i hi => ?_⟩
      · rw [lookup_cons, if_pos (by omega), at_some]
        have := start_lt (hb.2 s (by simp)); omega
      · rw [lookup_cons, if_neg (by omega), lookup_nil]
    | cons a t' =>
      have hp' : (a :: t').getLast? = some p := by rw [List.getLast?_cons_cons] at hp; exact hp
      have hsp : s.1 < p.1 := (List.pairwise_cons.1 hb.1).1 p (List.mem_of_getLast? hp')
      obtain ⟨j1, j2⟩ := ih ⟨(List.pairwise_cons.1 hb.1).2, fun s hs => hb.2 s (by simp [hs])⟩ hp'
      refine ⟨by rw [lookup_cons, if_neg (by omega)]; exact j1, fun i hi => by rw [lookup_cons, if_neg (by omega)]; exact j2 i hi⟩

/-- Some pixel of the strip is stored already. -/
def Overlaps (row : List (Strip α)) (e : Int) (v : List α) : Prop := ∃ i, (Strip.at (e, v) i).isSome ∧ (lookup row i).isSome

/-- Some strip of the row ends at the column or later. -/
def Beyond (row : List (Strip α)) (e : Int) : Prop := ∃ s ∈ row, e ≤ s.1

theorem takeWhile_mem {p : Strip α → Bool} {l : List (Strip α)} {o : Strip α} (h : o ∈ l.takeWhile p) : p o = true := by
  induction l with
  | nil => simp at h
  | cons a t ih =>
    by_cases hp : p a
    · rw [List.takeWhile_cons_of_pos hp] at h
      rcases List.mem_cons.1 h with rfl | h
      · exact hp
      · exact ih h
    · rw [List.takeWhile_cons_of_neg hp] at h; simp at h

theorem at_append (k : Int) (v w : List α) (i : Int) :
    Strip.at (k, v ++ w) i = if i < k - w.length then Strip.at (k - w.length, v) i else Strip.at (k, w) i := by
  unfold Strip.at Strip.start
  simp only [List.length_append]
  push_cast
  by_cases h : i < k - (w.length : Int)
  · rw [if_pos h]
    by_cases h2 : i < k - w.length - v.length
    · rw [if_pos (by omega), if_pos h2]
    · rw [if_neg (by omega), if_neg h2, List.getElem?_append_left (by omega)]
      congr 2; omega
  · rw [if_neg h, if_neg (by omega), if_neg h, List.getElem?_append_right (by omega)]
    congr 1; omega

/-- What the insertion of a strip does to a row. -/
theorem insert_row (row : List (Strip α)) (hr : Inv row) (e : Int) (v : List α) (hv : v ≠ []) :
    (insert row e v = none ↔ Overlaps row e v ∧ Beyond row e) ∧
      (∀ r, insert row e v = some r → Inv r ∧
        (¬ Overlaps row e v → ∀ i, lookup r i = (lookup row i).or (Strip.at (e, v) i)) ∧
        (¬ Beyond row e → ∀ p, row.getLast? = some p → ∀ i, lookup r i = if i < p.1 then lookup row i else Strip.at (e, v) i)) := by
  set before := row.takeWhile (fun s => s.1 < e) with hbefore
  have hsplit : row = before ++ row.dropWhile (fun s => s.1 < e) := by rw [hbefore, List.takeWhile_append_dropWhile]
  have hb : ∀ s ∈ before, s.1 < e := fun s hs => by simpa using takeWhile_mem hs
  have hbi : Inv before := ⟨hr.1.sublist (List.takeWhile_sublist _), fun s hs => hr.2 s ((List.takeWhile_sublist _).subset hs)⟩
  have hvl : 0 < v.length := List.length_pos_iff.2 hv
  have hst : Strip.start (e, v) = e - v.length := rfl
  cases hrest : row.dropWhile (fun s => s.1 < e) with
  | nil =>
    rw [hrest, List.append_nil] at hsplit
    have hins : insert row e v = some (row ++ [(e, v)]) := by
      unfold insert; rw [hrest]; simp only []; rw [← hbefore, ← hsplit]
    have hnb : ¬ Beyond row e := by
      rintro ⟨s, hs, h⟩; rw [hsplit] at hs; have := hb s hs; omega
    rw [hins]
    refine ⟨⟨fun h => (by cases h), fun h => absurd h.2 hnb⟩, ?_⟩
    intro r hr'
    cases hr'
    have hall : ∀ s ∈ row, s.1 < e := fun s hs => by rw [hsplit] at hs; exact hb s hs
    have last : ∀ p, row.getLast? = some p → ∀ i, lookup (row ++ [(e, v)]) i = if i < p.1 then lookup row i else Strip.at (e, v) i := by
      intro p hp i
      rw [(lookup_append row [(e, v)] hr.1 i).2 p hp, lookup_cons, lookup_nil]
      by_cases h1 : i < p.1
      · rw [if_pos h1, if_pos h1]
      · rw [if_neg h1, if_neg h1]
        by_cases h2 : i < e
        · rw [if_pos h2]
        · rw [if_neg h2, at_none _ _ (Or.inr (by show e ≤ i; omega))]
    refine ⟨⟨List.pairwise_append.2 ⟨hr.1, List.pairwise_singleton _ _, fun a ha b hb' => by
      rw [List.mem_singleton] at hb'; subst hb'; exact hall a ha⟩, fun s hs => ?_⟩, fun hno i => ?_, fun _ => last⟩
    · rcases List.mem_append.1 hs with hs | hs
      · exact hr.2 s hs
      · rw [List.mem_singleton] at hs; subst hs; exact hv
    · cases hl : row.getLast? with
      | none =>
        have : row = [] := List.getLast?_eq_none_iff.1 hl
        subst this
        rw [List.nil_append, lookup_cons, lookup_nil]
        by_cases h2 : i < e
        · rw [if_pos h2]; rfl
        · rw [if_neg h2, at_none _ _ (Or.inr (by show e ≤ i; omega))]; rfl
      | some p =>
        obtain ⟨l1, l2⟩ := lookup_last row hr p hl
        have hpe : p.1 < e := hall p (List.mem_of_getLast? hl)
        have hs : p.1 ≤ e - v.length := by
          by_contra hc
          exact hno ⟨p.1 - 1, (at_some _ _).2 ⟨by rw [hst]; omega, by show p.1 - 1 < e; omega⟩, l1⟩
        rw [last p hl i]
        by_cases h1 : i < p.1
        · rw [if_pos h1, at_none (e, v) i (Or.inl (by rw [hst]; omega)), Option.or_none]
        · rw [if_neg h1, l2 i (by omega)]; rfl
  | cons it after =>
    rw [hrest] at hsplit
    have hit : e ≤ it.1 := by
      have hd := List.head?_dropWhile_not (fun s : Strip α => decide (s.1 < e)) row
      rw [hrest] at hd
      simpa using hd
    have hitmem : it ∈ row := by rw [hsplit]; simp
    have hitne := hr.2 it hitmem
    have hits := start_lt hitne
    have hbey : Beyond row e := ⟨it, hitmem, hit⟩
    have hP := hr.1
    rw [hsplit, List.pairwise_append] at hP
    obtain ⟨-, hP2, hP3⟩ := hP
    have hitafter := (List.pairwise_cons.1 hP2).1
    -- rows of the form before ++ X
    have form : ∀ (X : List (Strip α)) (i : Int), lookup (before ++ X) i =
        match before.getLast? with
        | none => lookup X i
        | some p => if i < p.1 then lookup before i else lookup X i := by
      intro X i
      cases hl : before.getLast? with
      | none => exact (lookup_append before X hbi.1 i).1 (List.getLast?_eq_none_iff.1 hl)
      | some p => exact (lookup_append before X hbi.1 i).2 p hl
    have rowl : ∀ i, lookup row i = lookup (before ++ it :: after) i := fun i => by rw [← hsplit]
    set op : Bool := (match before.getLast? with
      | none => false
      | some prev => decide (e - v.length < prev.1)) with hop
    have hins : insert row e v = if op || decide (e > Strip.start it) then none
        else if e = Strip.start it then some (before ++ (it.1, v ++ it.2) :: after)
        else some (before ++ (e, v) :: it :: after) := by
      unfold insert; rw [hrest]; rfl
    -- an overlap is exactly what is tested
    have hover : Overlaps row e v ↔ (op || decide (e > Strip.start it)) = true := by
      constructor
      · rintro ⟨i, h1, h2⟩
        rw [at_some, hst] at h1
        have h1' : i < e := h1.2
        rw [rowl, form] at h2
        by_contra hc
        simp only [Bool.or_eq_true, decide_eq_true_eq, not_or] at hc
        cases hl : before.getLast? with
        | none =>
          rw [hl] at h2
          simp only [] at h2
          rw [lookup_cons, if_pos (by omega), at_some] at h2
          omega
        | some p =>
          rw [hl] at h2 hop
          simp only [] at h2 hop
          have : ¬ (e - (v.length : Int) < p.1) := by
            intro h; rw [hop] at hc; simp [h] at hc
          rw [if_neg (by omega), lookup_cons, if_pos (by omega), at_some] at h2
          omega
      · intro h
        simp only [Bool.or_eq_true, decide_eq_true_eq] at h
        rcases h with h | h
        · cases hl : before.getLast? with
          | none => rw [hop, hl] at h; simp at h
          | some p =>
            rw [hop, hl] at h
            simp only [decide_eq_true_eq] at h
            have hpe : p.1 < e := hb p (List.mem_of_getLast? hl)
            refine ⟨p.1 - 1, (at_some _ _).2 ⟨by rw [hst]; omega, by show p.1 - 1 < e; omega⟩, ?_⟩
            rw [rowl, form, hl]
            simp only []
            rw [if_pos (by omega)]
            exact (lookup_last before hbi p hl).1
        · refine ⟨e - 1, (at_some _ _).2 ⟨by rw [hst]; omega, by show e - 1 < e; omega⟩, ?_⟩
          rw [rowl, form]
          have hL : (lookup (it :: after) (e - 1)).isSome := by
            rw [lookup_cons, if_pos (by omega), at_some]; omega
          cases hl : before.getLast? with
          | none => exact hL
          | some p =>
            simp only []
            have hpe : p.1 < e := hb p (List.mem_of_getLast? hl)
            rw [if_neg (by omega)]
            exact hL
    rw [hins]
    by_cases hc : (op || decide (e > Strip.start it)) = true
    · rw [if_pos hc]
      exact ⟨⟨fun _ => ⟨hover.2 hc, hbey⟩, fun _ => rfl⟩, fun r h => by cases h⟩
    · rw [if_neg hc]
      have hno : ¬ Overlaps row e v := fun h => hc (hover.1 h)
      simp only [Bool.or_eq_true, decide_eq_true_eq, not_or] at hc
      have hop' : ∀ p, before.getLast? = some p → p.1 ≤ e - v.length := by
        intro p hl
        by_contra h
        apply hc.1
        rw [hop, hl]
        simp only [decide_eq_true_eq]
        omega
      -- the value found, given the one found in the part from the strip on
      have fin : ∀ X : List (Strip α), (∀ i, lookup X i = (lookup (it :: after) i).or (Strip.at (e, v) i)) →
          ∀ i, lookup (before ++ X) i = (lookup row i).or (Strip.at (e, v) i) := by
        intro X hX i
        rw [rowl, form, form]
        cases hl : before.getLast? with
        | none => exact hX i
        | some p =>
          simp only []
          by_cases h1 : i < p.1
          · rw [if_pos h1, if_pos h1, at_none (e, v) i (Or.inl (by rw [hst]; have := hop' p hl; omega)), Option.or_none]
          · rw [if_neg h1, if_neg h1]; exact hX i
      by_cases hc2 : e = Strip.start it
      · rw [if_pos hc2]
        refine ⟨⟨fun h => (by cases h), fun h => absurd h.1 hno⟩, ?_⟩
        intro r hr'
        cases hr'
        refine ⟨⟨?_, ?_⟩, fun _ => fin _ ?_, fun h => absurd hbey h⟩
        · rw [List.pairwise_append]
          refine ⟨hbi.1, List.pairwise_cons.2 ⟨hitafter, (List.pairwise_cons.1 hP2).2⟩, fun a ha b hb' => ?_⟩
          rcases List.mem_cons.1 hb' with rfl | hb'
          · exact hP3 a ha it (by simp)
          · exact hP3 a ha b (by simp [hb'])
        · intro s hs
          rcases List.mem_append.1 hs with hs | hs
          · exact hbi.2 s hs
          · rcases List.mem_cons.1 hs with rfl | hs
            · simp [hv]
            · exact hr.2 s (by rw [hsplit]; simp [hs])
        · intro i
          rw [lookup_cons, lookup_cons]
          by_cases h1 : i < it.1
          · rw [if_pos h1, if_pos h1, at_append]
            have he : it.1 - (it.2.length : Int) = e := by rw [hc2]; rfl
            rw [he]
            by_cases h2 : i < e
            · rw [if_pos h2, at_none it i (Or.inl (by omega))]; rfl
            · rw [if_neg h2, at_none (e, v) i (Or.inr (by show e ≤ i; omega)), Option.or_none]
          · rw [if_neg h1, if_neg h1, at_none (e, v) i (Or.inr (by show e ≤ i; omega)), Option.or_none]
      · rw [if_neg hc2]
        refine ⟨⟨fun h => (by cases h), fun h => absurd h.1 hno⟩, ?_⟩
        intro r hr'
        cases hr'
        refine ⟨⟨?_, ?_⟩, fun _ => fin _ ?_, fun h => absurd hbey h⟩
        · rw [List.pairwise_append]
          refine ⟨hbi.1, List.pairwise_cons.2 ⟨fun b hb' => ?_, hP2⟩, fun a ha b hb' => ?_⟩
          · show e < b.1
            rcases List.mem_cons.1 hb' with rfl | hb'
            · omega
            · have := hitafter b hb'; omega
          · rcases List.mem_cons.1 hb' with rfl | hb'
            · exact hb a ha
            · exact hP3 a ha b hb'
        · intro s hs
          rcases List.mem_append.1 hs with hs | hs
          · exact hbi.2 s hs
          · rcases List.mem_cons.1 hs with rfl | hs
            · exact hv
            · exact hr.2 s (by rw [hsplit]; exact List.mem_append_right _ hs)
        · intro i
          rw [lookup_cons]
          by_cases h1 : i < e
          · rw [if_pos (show i < ((e, v) : Strip α).1 from h1), lookup_cons, if_pos (by omega), at_none it i (Or.inl (by omega))]; rfl
          · rw [if_neg (show ¬ i < ((e, v) : Strip α).1 from h1), at_none (e, v) i (Or.inr (by show e ≤ i; omega)), Option.or_none]

/-- **C137 (a strip).** Inserting a strip into a row throws exactly if some pixel of it is stored already and some strip ends as far right or
farther; it never changes a stored pixel; if no pixel of it is stored already, exactly its pixels are added. -/
theorem insert_spec (row : List (Strip α)) (hr : Inv row) (e : Int) (v : List α) (hv : v ≠ []) :
    (insert row e v = none ↔ Overlaps row e v ∧ Beyond row e) ∧
      (∀ r, insert row e v = some r → Inv r ∧ (∀ i a, lookup row i = some a → lookup r i = some a) ∧
        (¬ Overlaps row e v → ∀ i, lookup r i = (lookup row i).or (Strip.at (e, v) i))) := by
  obtain ⟨h1, h2⟩ := insert_row row hr e v hv
  refine ⟨h1, fun r h => ⟨(h2 r h).1, fun i a ha => ?_, (h2 r h).2.1⟩⟩
  by_cases ho : Overlaps row e v
  · have hb : ¬ Beyond row e := fun hb => by rw [h1.2 ⟨ho, hb⟩] at h; cases h
    cases hl : row.getLast? with
    | none =>
      have : row = [] := List.getLast?_eq_none_iff.1 hl
      subst this; cases ha
    | some p =>
      rw [(h2 r h).2.2 hb p hl i]
      have hi : i < p.1 := by
        by_contra hc
        rw [(lookup_last row hr p hl).2 i (by omega)] at ha; cases ha
      rw [if_pos hi]; exact ha
  · rw [(h2 r h).2.1 ho i, ha]; rfl

/-! ### Patches -/

/-- The pixels of strips. -/
def stripsAt (x0 : Int) (l : List (Nat × List α)) (i : Int) : Option α := (l.map (fun s => Strip.at ((s.1 : Int) + x0, s.2) i)).foldr Option.or none

theorem stripsAt_some {x0 : Int} {l : List (Nat × List α)} {i : Int} (h : (stripsAt x0 l i).isSome) :
    ∃ b ∈ l, (Strip.at ((b.1 : Int) + x0, b.2) i).isSome := by
  induction l with
  | nil => cases h
  | cons b t ih =>
    cases hb : Strip.at ((b.1 : Int) + x0, b.2) i with
    | some a => exact ⟨b, by simp, by rw [hb]; rfl⟩
    | none =>
      have e : stripsAt x0 (b :: t) i = (Strip.at ((b.1 : Int) + x0, b.2) i).or (stripsAt x0 t i) := rfl
      rw [e, hb] at h
      obtain ⟨c, hc, hc'⟩ := ih h
      exact ⟨c, by simp [hc], hc'⟩

/-- The strips of a row are its valid pixels. -/
theorem strips_spec (row : List (Option α)) (c : Nat) (temp : List α) (hc : temp.length ≤ c) (x0 : Int) :
    (∀ s ∈ strips c temp row, s.2 ≠ []) ∧
      (strips c temp row).Pairwise (fun a b => (a.1 : Int) < b.1 - b.2.length) ∧
      (∀ s ∈ strips c temp row, (c : Int) - temp.length ≤ s.1 - s.2.length) ∧
      ∀ i, stripsAt x0 (strips c temp row) i =
        (Strip.at ((c : Int) + x0, temp) i).or (if x0 + c ≤ i then (row[(i - x0 - c).toNat]?).join else none) := by
  induction row generalizing c temp with
  | nil =>
    unfold strips
    by_cases ht : temp = []
    · subst ht
      refine ⟨by simp, by simp, by simp, fun i => ?_⟩
      have : Strip.at ((c : Int) + x0, ([] : List α)) i = none := by unfold Strip.at; split_ifs <;> simp
      rw [this]
      simp [stripsAt]
    · have : temp.isEmpty = false := by simpa using ht
      rw [this]
      refine ⟨by simpa using ht, by simp, by simp, fun i => ?_⟩
      simp [stripsAt]
  | cons o t ih =>
    cases o with
    | some a =>
      unfold strips
      obtain ⟨i1, i2, i3, i4⟩ := ih (c + 1) (temp ++ [a]) (by simp; omega)
      refine ⟨i1, i2, fun s hs => by have := i3 s hs; simp at this; omega, fun i => ?_⟩
      rw [i4 i]
      have e1 : ((c + 1 : Nat) : Int) + x0 = (c : Int) + x0 + 1 := by omega
      rw [e1, at_append]
      simp only [List.length_singleton]
      rw [show (c : Int) + x0 + 1 - ((1 : Nat) : Int) = c + x0 by omega]
      by_cases h1 : i < (c : Int) + x0
      · rw [if_pos h1, if_neg (by omega), if_neg (by omega)]
      · rw [if_neg h1, if_pos (by omega : x0 + (c : Int) ≤ i)]
        by_cases h2 : i = (c : Int) + x0
        · subst h2
          rw [if_neg (by omega), at_none ((c : Int) + x0, temp) _ (Or.inr (by show (c : Int) + x0 ≤ (c : Int) + x0; omega))]
          rw [show ((c : Int) + x0 - x0 - c).toNat = 0 by omega]
          have : Strip.at ((c : Int) + x0 + 1, [a]) ((c : Int) + x0) = some a := by
            unfold Strip.at Strip.start
            rw [if_neg (by simp)]
            simp
          rw [this]; rfl
        · rw [at_none ((c : Int) + x0 + 1, [a]) i (Or.inr (by show _ ≤ i; omega)), at_none ((c : Int) + x0, temp) i (Or.inr (by show _ ≤ i; omega)),
            if_pos (by omega)]
          rw [show (i - x0 - c).toNat = (i - x0 - ((c + 1 : Nat) : Int)).toNat + 1 by omega, List.getElem?_cons_succ]
    | none =>
      unfold strips
      obtain ⟨i1, i2, i3, i4⟩ := ih (c + 1) [] (by simp)
      have nil : ∀ (k : Int) (i : Int), Strip.at (k, ([] : List α)) i = none := by
        intro k i; unfold Strip.at; split_ifs <;> simp
      have step : ∀ i, (Strip.at (((c + 1 : Nat) : Int) + x0, ([] : List α)) i).or
          (if x0 + ((c + 1 : Nat) : Int) ≤ i then (t[(i - x0 - ((c + 1 : Nat) : Int)).toNat]?).join else none) =
          (if x0 + (c : Int) ≤ i then ((none :: t)[(i - x0 - c).toNat]?).join else none) := by
        intro i
        rw [nil, Option.none_or]
        by_cases h1 : x0 + (c : Int) ≤ i
        · rw [if_pos h1]
          by_cases h2 : i = x0 + c
          · subst h2
            rw [if_neg (by omega), show (x0 + (c : Int) - x0 - c).toNat = 0 by omega]; rfl
          · rw [if_pos (by omega), show (i - x0 - c).toNat = (i - x0 - ((c + 1 : Nat) : Int)).toNat + 1 by omega, List.getElem?_cons_succ]
        · rw [if_neg h1, if_neg (by omega)]
      by_cases ht : temp = []
      · subst ht
        simp only [List.isEmpty_nil, if_true]
        refine ⟨i1, i2, fun s hs => by have := i3 s hs; simp at this ⊢; omega, fun i => ?_⟩
        rw [i4 i, nil ((c : Int) + x0), Option.none_or]
        exact step i
      · have hte : temp.isEmpty = false := by simpa using ht
        rw [hte]
        simp only [Bool.false_eq_true, if_false]
        refine ⟨?_, List.pairwise_cons.2 ⟨fun b hb => ?_, i2⟩, ?_, fun i => ?_⟩
        · intro s hs
          rcases List.mem_cons.1 hs with rfl | hs
          · exact ht
          · exact i1 s hs
        · have := i3 b hb; simp at this; show (c : Int) < _; omega
        · intro s hs
          rcases List.mem_cons.1 hs with rfl | hs
          · exact Int.le_refl _
          · have := i3 s hs; simp at this; omega
        · have := i4 i
          unfold stripsAt at this ⊢
          rw [List.map_cons, List.foldr_cons, this]
          congr 1
          exact step i

theorem insertAll_spec (x0 : Int) (l : List (Nat × List α)) (h1 : ∀ s ∈ l, s.2 ≠ []) (h2 : l.Pairwise (fun a b => (a.1 : Int) < b.1 - b.2.length))
    (row : List (Strip α)) (hr : Inv row) :
    (∀ r, insertAll row x0 l = some r → Inv r ∧ ∀ i a, lookup row i = some a → lookup r i = some a) ∧
    ((∀ i, (stripsAt x0 l i).isSome → lookup row i = none) →
      ∃ r, insertAll row x0 l = some r ∧ ∀ i, lookup r i = (lookup row i).or (stripsAt x0 l i)) := by
  induction l generalizing row with
  | nil =>
    refine ⟨fun r h => by cases h; exact ⟨hr, fun i a h => h⟩, fun _ => ⟨row, rfl, fun i => ?_⟩⟩
    simp [stripsAt]
  | cons s t ih =>
    have hcons : ∀ i, stripsAt x0 (s :: t) i = (Strip.at ((s.1 : Int) + x0, s.2) i).or (stripsAt x0 t i) := fun i => rfl
    obtain ⟨n1, n2⟩ := insert_spec row hr ((s.1 : Int) + x0) s.2 (h1 s (by simp))
    constructor
    · intro r h
      unfold insertAll at h
      cases hi : insert row ((s.1 : Int) + x0) s.2 with
      | none => rw [hi] at h; cases h
      | some r1 =>
        rw [hi] at h
        obtain ⟨m1, m2, -⟩ := n2 r1 hi
        obtain ⟨k1, k2⟩ := (ih (fun s hs => h1 s (by simp [hs])) (List.pairwise_cons.1 h2).2 r1 m1).1 r h
        exact ⟨k1, fun i a ha => k2 i a (m2 i a ha)⟩
    · intro hd
      have hno : ¬ Overlaps row ((s.1 : Int) + x0) s.2 := by
        rintro ⟨i, a, b⟩
        have := hd i (by rw [hcons]; cases hx : Strip.at ((s.1 : Int) + x0, s.2) i with
          | none => rw [hx] at a; cases a
          | some _ => rfl)
        rw [this] at b; cases b
      cases hi : insert row ((s.1 : Int) + x0) s.2 with
      | none => exact absurd (n1.1 hi).1 hno
      | some r1 =>
        obtain ⟨m1, -, m3⟩ := n2 r1 hi
        have m3 := m3 hno
        have hafter : ∀ i, (stripsAt x0 t i).isSome → Strip.at ((s.1 : Int) + x0, s.2) i = none := by
          intro i hi'
          have := stripsAt_some hi'
          obtain ⟨b, hb, hb'⟩ := this
          rw [at_some] at hb'
          have := (List.pairwise_cons.1 h2).1 b hb
          apply at_none
          right
          have h5 : Strip.start ((b.1 : Int) + x0, b.2) = (b.1 : Int) + x0 - b.2.length := rfl
          show (s.1 : Int) + x0 ≤ i
          omega
        obtain ⟨r, k1, k2⟩ := (ih (fun s hs => h1 s (by simp [hs])) (List.pairwise_cons.1 h2).2 r1 m1).2 (fun i hi' => by
          rw [m3, hafter i hi', Option.or_none]
          apply hd
          rw [hcons, hafter i hi']; exact hi')
        refine ⟨r, by unfold insertAll; rw [hi]; exact k1, fun i => ?_⟩
        rw [k2, m3, hcons, Option.or_assoc]

theorem getD_set {β : Type} (data : List (List β)) (i j : Nat) (r : List β) (hi : i < data.length) :
    (data.set i r).getD j [] = if i = j then r else data.getD j [] := by
  rw [List.getD_eq_getElem?_getD, List.getElem?_set, List.getD_eq_getElem?_getD]
  by_cases h : i = j
  · subst h; simp [hi]
  · simp [h]

/-- A store as the class builds it. -/
def Ok (data : List (List (Strip α))) : Prop := ∀ j : Nat, Inv (data.getD j [])

theorem absorbRows_spec (x0 : Int) (rows : List (List (Option α))) (y : Nat) (data : List (List (Strip α))) (hl : y + rows.length ≤ data.length)
    (hd : Ok data) :
    (∀ d, absorbRows data x0 y rows = some d → d.length = data.length ∧ Ok d ∧
      ∀ i j a, lookup (data.getD j []) i = some a → lookup (d.getD j []) i = some a) ∧
    ((∀ i j, (patchAt x0 y rows i j).isSome → lookup (data.getD j []) i = none) →
      ∃ d, absorbRows data x0 y rows = some d ∧ ∀ i j, lookup (d.getD j []) i = (lookup (data.getD j []) i).or (patchAt x0 y rows i j)) := by
  induction rows generalizing y data with
  | nil =>
    refine ⟨fun d h => by cases h; exact ⟨rfl, hd, fun i j a h => h⟩, fun _ => ⟨data, rfl, fun i j => ?_⟩⟩
    simp [patchAt]
  | cons r rs ih =>
    have hy : y < data.length := by simp at hl; omega
    obtain ⟨s1, s2, -, s4⟩ := strips_spec r 0 [] (by simp) x0
    obtain ⟨a1, a2⟩ := insertAll_spec x0 (strips 0 [] r) s1 s2 (data.getD y []) (hd y)
    have hrow : ∀ i, stripsAt x0 (strips 0 [] r) i = patchAt x0 y (r :: rs) i y := by
      intro i
      rw [s4 i]
      have : Strip.at (((0 : Nat) : Int) + x0, ([] : List α)) i = none := by unfold Strip.at; split_ifs <;> simp
      rw [this, Option.none_or]
      unfold patchAt
      simp
    have hrest : ∀ i j, patchAt x0 y (r :: rs) i j = if j = y then patchAt x0 y (r :: rs) i y else patchAt x0 (y + 1) rs i j := by
      intro i j
      by_cases h : j = y
      · rw [if_pos h, h]
      · rw [if_neg h]
        unfold patchAt
        by_cases h2 : x0 ≤ i ∧ y ≤ j
        · rw [if_pos h2, if_pos (by omega), show j - y = (j - (y + 1)) + 1 by omega, List.getD_cons_succ]
        · rw [if_neg h2, if_neg (by omega)]
    have hself : ∀ i, patchAt x0 (y + 1) rs i y = none := by
      intro i; unfold patchAt; rw [if_neg (by omega)]
    have hset : ∀ row : List (Strip α), Inv row → Ok (data.set y row) := by
      intro row h j
      rw [getD_set _ _ _ _ hy]
      split_ifs
      · exact h
      · exact hd j
    constructor
    · intro d h
      unfold absorbRows at h
      cases hi : insertAll (data.getD y []) x0 (strips 0 [] r) with
      | none => rw [hi] at h; cases h
      | some row =>
        rw [hi] at h
        obtain ⟨b1, b2⟩ := a1 row hi
        obtain ⟨c1, c2, c3⟩ := (ih (y + 1) (data.set y row) (by rw [List.length_set]; simp at hl; omega) (hset row b1)).1 d h
        refine ⟨by rw [c1, List.length_set], c2, fun i j a ha => c3 i j a ?_⟩
        rw [getD_set _ _ _ _ hy]
        split_ifs with hj
        · subst hj; exact b2 i a ha
        · exact ha
    · intro hdis
      obtain ⟨row, e, hc⟩ := a2 (fun i hi => hdis i y (by rw [← hrow]; exact hi))
      obtain ⟨b1, -⟩ := a1 row e
      obtain ⟨d, e', hc'⟩ := (ih (y + 1) (data.set y row) (by rw [List.length_set]; simp at hl; omega) (hset row b1)).2 (fun i j hi => by
        have hj : j ≠ y := by rintro rfl; rw [hself] at hi; cases hi
        rw [getD_set _ _ _ _ hy, if_neg (Ne.symm hj)]
        apply hdis
        rw [hrest, if_neg hj]; exact hi)
      refine ⟨d, by unfold absorbRows; rw [e]; exact e', fun i j => ?_⟩
      rw [hc', getD_set _ _ _ _ hy, hrest]
      by_cases hj : j = y
      · subst hj
        rw [if_pos rfl, if_pos rfl, hc, hrow, hself, Option.or_none]
      · rw [if_neg (Ne.symm hj), if_neg hj]

theorem getD_pad (data : List (List (Strip α))) (n j : Nat) : (data ++ List.replicate n []).getD j [] = data.getD j [] := by
  rw [List.getD_eq_getElem?_getD, List.getD_eq_getElem?_getD, List.getElem?_append]
  split_ifs with h
  · rfl
  · rw [List.getElem?_replicate, List.getElem?_eq_none (by omega)]
    split_ifs <;> rfl

/-- A view made by any history of calls of `absorb` that did not throw. -/
inductive Reach (h : Nat) (under : Int → Int → α) : View α → Prop
  | init : Reach h under (View.create h under)
  | absorb {v w : View α} (x0 : Int) (y0 : Nat) (patch : List (List (Option α))) : Reach h under v → v.absorb x0 y0 patch = some w → Reach h under w

theorem Reach.ok {h : Nat} {under : Int → Int → α} {v : View α} (hv : Reach h under v) : Ok v.data ∧ v.under = under := by
  induction hv with
  | init =>
    refine ⟨fun j => ?_, rfl⟩
    have : (List.replicate h ([] : List (Strip α))).getD j [] = [] := by
      rw [List.getD_eq_getElem?_getD, List.getElem?_replicate]; split_ifs <;> rfl
    show Inv ((List.replicate h ([] : List (Strip α))).getD j [])
    rw [this]
    exact ⟨List.Pairwise.nil, by simp⟩
  | @absorb v w x0 y0 patch _ hw ih =>
    unfold View.absorb at hw
    rw [Option.map_eq_some_iff] at hw
    obtain ⟨d, hd, rfl⟩ := hw
    obtain ⟨-, b, -⟩ := (absorbRows_spec x0 patch y0 _ (by simp; omega) (fun j => by rw [getD_pad]; exact ih.1 j)).1 d hd
    exact ⟨b, ih.2⟩

/-- **C137 (a patch).** After any history: absorbing a patch without a valid pixel at a place that is stored already does not throw, and then
exactly its valid pixels are stored in addition. In any case, if it does not throw, no stored pixel changes. -/
theorem absorb_spec {h : Nat} {under : Int → Int → α} {v : View α} (hv : Reach h under v) (x0 : Int) (y0 : Nat) (patch : List (List (Option α))) :
    (∀ w, v.absorb x0 y0 patch = some w → w.under = v.under ∧ ∀ i j a, v.stored i j = some a → w.stored i j = some a) ∧
      ((∀ i j, (patchAt x0 y0 patch i j).isSome → v.stored i j = none) →
        ∃ w, v.absorb x0 y0 patch = some w ∧ ∀ i j, w.stored i j = (v.stored i j).or (patchAt x0 y0 patch i j)) := by
  obtain ⟨a1, a2⟩ := absorbRows_spec x0 patch y0 (v.data ++ List.replicate (y0 + patch.length - v.data.length) []) (by simp; omega)
    (fun j => by rw [getD_pad]; exact hv.ok.1 j)
  unfold View.absorb
  constructor
  · intro w hw
    rw [Option.map_eq_some_iff] at hw
    obtain ⟨d, hd, rfl⟩ := hw
    obtain ⟨-, -, c⟩ := a1 d hd
    refine ⟨rfl, fun i j a ha => c i j a ?_⟩
    rw [getD_pad]; exact ha
  · intro hdis
    obtain ⟨d, e, hc⟩ := a2 (fun i j hi => by rw [getD_pad]; exact hdis i j hi)
    refine ⟨_, by rw [e]; rfl, fun i j => ?_⟩
    have := hc i j
    rw [getD_pad] at this
    exact this

/-- The patches one after the other; `none` if one throws. -/
def absorbAll (v : View α) : List (Int × Nat × List (List (Option α))) → Option (View α)
  | [] => some v
  | p :: t => match v.absorb p.1 p.2.1 p.2.2 with
    | none => none
    | some w => absorbAll w t

/-- **C137 (patches).** If no two of the patches have a valid pixel at the same place, a view that absorbs them all gives at each place the pixel
of the patch that has a valid one there, else the one of the image. -/
theorem absorbAll_spec (h : Nat) (under : Int → Int → α) (ps : List (Int × Nat × List (List (Option α))))
    (hd : ps.Pairwise (fun p q => ∀ i j, ¬ ((patchAt p.1 p.2.1 p.2.2 i j).isSome ∧ (patchAt q.1 q.2.1 q.2.2 i j).isSome))) :
    ∃ w, absorbAll (View.create h under) ps = some w ∧
      (∀ p ∈ ps, ∀ i j a, patchAt p.1 p.2.1 p.2.2 i j = some a → w.pixel i j = a) ∧
      (∀ i j, (∀ p ∈ ps, patchAt p.1 p.2.1 p.2.2 i j = none) → w.pixel i j = under i j) := by
  have G : ∀ (ps : List (Int × Nat × List (List (Option α)))) (v : View α), Reach h under v →
      ps.Pairwise (fun p q => ∀ i j, ¬ ((patchAt p.1 p.2.1 p.2.2 i j).isSome ∧ (patchAt q.1 q.2.1 q.2.2 i j).isSome)) →
      (∀ p ∈ ps, ∀ i j, (patchAt p.1 p.2.1 p.2.2 i j).isSome → v.stored i j = none) →
      ∃ w, absorbAll v ps = some w ∧ Reach h under w ∧ (∀ i j a, v.stored i j = some a → w.stored i j = some a) ∧
        (∀ p ∈ ps, ∀ i j a, patchAt p.1 p.2.1 p.2.2 i j = some a → w.stored i j = some a) ∧
        (∀ i j, (∀ p ∈ ps, patchAt p.1 p.2.1 p.2.2 i j = none) → w.stored i j = v.stored i j) := by
    intro ps
    induction ps with
    | nil => exact fun v hv _ _ => ⟨v, rfl, hv, fun i j a h => h, by simp, fun i j _ => rfl⟩
    | cons p t ih =>
      intro v hv hp hdis
      obtain ⟨a1, a2⟩ := absorb_spec hv p.1 p.2.1 p.2.2
      obtain ⟨w, e, hc⟩ := a2 (hdis p (by simp))
      obtain ⟨u, e', hu, u1, u2, u3⟩ := ih w (Reach.absorb _ _ _ hv e) (List.pairwise_cons.1 hp).2 (fun q hq i j hi => by
        rw [hc, hdis q (by simp [hq]) i j hi, Option.none_or]
        by_contra hn
        exact (List.pairwise_cons.1 hp).1 q hq i j ⟨Option.isSome_iff_ne_none.2 hn, hi⟩)
      refine ⟨u, by unfold absorbAll; rw [e]; exact e', hu, fun i j a h => u1 i j a ((a1 w e).2 i j a h), fun q hq i j a h => ?_, fun i j h => ?_⟩
      · rcases List.mem_cons.1 hq with rfl | hq
        · apply u1
          rw [hc, hdis q (by simp) i j (by rw [h]; rfl), Option.none_or]; exact h
        · exact u2 q hq i j a h
      · rw [u3 i j (fun q hq => h q (by simp [hq])), hc, h p (by simp), Option.or_none]
  have h0 : ∀ i j, (View.create h under).stored i j = none := by
    intro i j
    show lookup ((List.replicate h ([] : List (Strip α))).getD j []) i = none
    have : (List.replicate h ([] : List (Strip α))).getD j [] = [] := by
      rw [List.getD_eq_getElem?_getD, List.getElem?_replicate]; split_ifs <;> rfl
    rw [this]; rfl
  obtain ⟨w, e, hw, -, w2, w3⟩ := G ps (View.create h under) Reach.init hd (fun p _ i j _ => h0 i j)
  refine ⟨w, e, fun p hp i j a h => ?_, fun i j h => ?_⟩
  · rw [View.pixel_eq, w2 p hp i j a h]; rfl
  · rw [View.pixel_eq, w3 i j h, h0, hw.ok.2]; rfl

/-! ### Cases -/

/-- Two patches that touch, in the wrong order, and one between others. -/
def exPatches : List (Int × Nat × List (List (Option Nat))) :=
  [(3, 0, [[some 3, some 4, none]]), (1, 0, [[some 1, some 2], [none, some 12]]), (6, 0, [[some 6, none, some 8]])]

example : exPatches.Pairwise (fun p q => ∀ i j, ¬ ((patchAt p.1 p.2.1 p.2.2 i j).isSome ∧ (patchAt q.1 q.2.1 q.2.2 i j).isSome)) := by
  have R : ∀ (x0 : Int) (y0 : Nat) (patch : List (List (Option Nat))) (n : Nat), (∀ r ∈ patch, r.length ≤ n) → ∀ i j,
      (patchAt x0 y0 patch i j).isSome → x0 ≤ i ∧ i < x0 + n := by
    intro x0 y0 patch n hn i j h
    unfold patchAt at h
    by_cases hc : x0 ≤ i ∧ y0 ≤ j
    · rw [if_pos hc] at h
      refine ⟨hc.1, ?_⟩
      by_contra hcon
      have hlen : (patch.getD (j - y0) []).length ≤ n := by
        rw [List.getD_eq_getElem?_getD]
        cases he : patch[j - y0]? with
        | none => simp
        | some r => exact hn r (List.mem_of_getElem? he)
      rw [List.getElem?_eq_none (by omega)] at h
      cases h
    · rw [if_neg hc] at h; cases h
  unfold exPatches
  simp only [List.pairwise_cons, List.mem_cons, List.not_mem_nil, or_false, forall_eq_or_imp, forall_eq, false_imp_iff, implies_true,
    List.Pairwise.nil, and_true]
  refine ⟨⟨fun i j h => ?_, fun i j h => ?_⟩, fun i j h => ?_⟩
  · have a := R _ _ _ 3 (by decide) i j h.1
    have b := R _ _ _ 2 (by decide) i j h.2
    omega
  · have a := R _ _ _ 3 (by decide) i j h.1
    have b := R _ _ _ 3 (by decide) i j h.2
    omega
  · have a := R _ _ _ 2 (by decide) i j h.1
    have b := R _ _ _ 3 (by decide) i j h.2
    omega

example : ((absorbAll (View.create 2 (fun _ _ => 0)) exPatches).map (fun w => (List.range 10).map (fun i : Nat => w.pixel i 0))) =
    some [0, 1, 2, 3, 4, 0, 6, 0, 8, 0] := by decide

/-- **Refuted (C137).** A patch that reaches farther right than all others is not checked: it does not throw though it overlaps a strip, and the
part of it before that strip is lost. Here columns 2 to 6 over a strip at column 4. -/
theorem overlap_lost :
    ∃ (v w : View Nat), Reach 1 (fun _ _ => 0) v ∧ v.absorb 2 0 [[some 9, some 9, some 9, some 9, some 9]] = some w ∧
      (List.range 8).map (fun i : Nat => v.pixel i 0) = [0, 0, 0, 0, 7, 0, 0, 0] ∧
      (List.range 8).map (fun i : Nat => w.pixel i 0) = [0, 0, 0, 0, 7, 9, 9, 0] := by
  refine ⟨⟨[[(5, [7])]], fun _ _ => 0⟩, ⟨[[(5, [7]), (7, [9, 9, 9, 9, 9])]], fun _ _ => 0⟩, ?_, rfl, by decide, by decide⟩
  exact Reach.absorb 4 0 [[some 7]] Reach.init rfl

/-- The same patch one column shorter than the strips stored is refused. -/
example : (absorbAll (View.create 1 (fun _ _ => 0)) [(4, 0, [[some 7, some 7]]), (2, 0, [[some 9, some 9, some 9, some 9]])]).isNone := by decide

end VW.Sparse
