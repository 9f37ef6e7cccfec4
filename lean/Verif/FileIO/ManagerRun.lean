import Verif.FileIO.ManagerProps

/-
C118, continued: every history of calls.
-/

namespace Verif.FileIO
open VW.BBox

/-- How many references to image `i` are out. -/
def held (out : List (Nat × Nat)) (i : Nat) : Nat := out.countP fun r => r.1 = i

/-- The use count of an image. -/
def usedOf (s : Mgr) (i : Nat) : Nat := match s.files[i]? with
  | some e => e.used
  | none => 0

theorem usedOf_bump (s : Mgr) (i j : Nat) (hi : i < s.files.length) : usedOf (s.bump i) j = usedOf s j + if j = i then 1 else 0 := by
  unfold usedOf
  rw [bump_get]
  cases h : s.files[j]? with
  | none =>
    have : j ≠ i := by rintro rfl; rw [List.getElem?_eq_getElem hi] at h; exact absurd h (by simp)
    simp [this]
  | some e => by_cases hij : i = j <;> simp [hij, eq_comm]

theorem usedOf_close (s : Mgr) (m j : Nat) : usedOf (s.close m) j = usedOf s j := by
  unfold usedOf Mgr.close
  dsimp only
  rw [List.getElem?_modify]
  cases s.files[j]? with
  | none => rfl
  | some e => by_cases h : m = j <;> simp [h]

theorem usedOf_open (s : Mgr) (m j : Nat) : usedOf (s.open m) j = usedOf s j := by
  unfold usedOf Mgr.open
  dsimp only
  rw [List.getElem?_modify]
  cases s.files[j]? with
  | none => rfl
  | some e => by_cases h : m = j <;> simp [h]

theorem usedOf_release (s : Mgr) (i j : Nat) : usedOf (s.release i) j = usedOf s j - if j = i then 1 else 0 := by
  unfold usedOf Mgr.release
  dsimp only
  rw [List.getElem?_modify]
  cases s.files[j]? with
  | none => simp
  | some e => by_cases h : i = j <;> simp [h, eq_comm]

theorem handle_release (s : Mgr) (i j : Nat) : (s.release i).handle j = s.handle j := by
  unfold Mgr.handle Mgr.release
  dsimp only
  rw [List.getElem?_modify]
  cases s.files[j]? with
  | none => rfl
  | some e => by_cases h : i = j <;> simp [h]

/-- What `get` does to the handles and the use counts. -/
theorem get_cases (s : Mgr) (i : Nat) (bbox : Box ℝ 2) (ok : Bool) (hi : i < s.files.length) :
    (∀ j, usedOf (s.get i bbox ok).1 j = usedOf s j + if j = i then 1 else 0) ∧
    ((∃ h, s.handle i = some h ∧ s.get i bbox ok = (s.bump i, .handle h)) ∨
     (s.handle i = none ∧ (s.get i bbox ok = (s.bump i, .noneFree) ∨ s.get i bbox ok = (s.bump i, .notOpen))) ∨
     (∃ m h, s.handle i = none ∧ m ≠ i ∧ s.handle m = some h ∧ usedOf s m = 0 ∧
       (s.get i bbox ok = (((s.bump i).close m).open i, .handle s.next) ∨ s.get i bbox ok = ((s.bump i).close m, .openFailed)))) := by
  have hmain : (∃ h, s.handle i = some h ∧ s.get i bbox ok = (s.bump i, .handle h)) ∨
     (s.handle i = none ∧ (s.get i bbox ok = (s.bump i, .noneFree) ∨ s.get i bbox ok = (s.bump i, .notOpen))) ∨
     (∃ m h, s.handle i = none ∧ m ≠ i ∧ s.handle m = some h ∧ usedOf s m = 0 ∧
       (s.get i bbox ok = (((s.bump i).close m).open i, .handle s.next) ∨ s.get i bbox ok = ((s.bump i).close m, .openFailed))) := by
    cases hh : s.handle i with
    | some h => left; exact ⟨h, rfl, by rw [get_eq, hh]⟩
    | none =>
      right
      rw [get_closed s i bbox ok hh]
      by_cases h0 : rk s i bbox (pick s i bbox) = 0
      · rw [if_pos h0]; exact Or.inl ⟨rfl, Or.inl rfl⟩
      · rw [if_neg h0]
        cases hm : s.handle (pick s i bbox) with
        | none => exact Or.inl ⟨rfl, Or.inr rfl⟩
        | some k =>
          right
          refine ⟨pick s i bbox, k, rfl, ?_, hm, ?_, ?_⟩
          · rintro he
            rw [he, hh] at hm
            exact absurd hm (by simp)
          · unfold usedOf
            cases hf : s.files[pick s i bbox]? with
            | none => rfl
            | some e =>
              by_contra hu
              apply h0
              rw [rk_some s i _ bbox e hf]
              unfold rank
              rw [if_pos (Nat.pos_of_ne_zero hu)]
              simp
          · cases ok
            · exact Or.inr rfl
            · exact Or.inl rfl
  refine ⟨?_, hmain⟩
  intro j
  rcases hmain with ⟨h, -, h2⟩ | ⟨-, h2 | h2⟩ | ⟨m, h, -, -, -, -, h2 | h2⟩ <;> rw [h2]
  · exact usedOf_bump s i j hi
  · exact usedOf_bump s i j hi
  · exact usedOf_bump s i j hi
  · show usedOf (((s.bump i).close m).open i) j = _
    rw [usedOf_open, usedOf_close]; exact usedOf_bump s i j hi
  · show usedOf ((s.bump i).close m) j = _
    rw [usedOf_close]; exact usedOf_bump s i j hi

theorem handle_add_old (s : Mgr) (box : Box ℝ 2) (ok : Bool) (j h : Nat) (hh : (s.add box ok).handle j = some h) :
    s.handle j = some h ∨ (h = s.next ∧ (s.add box ok).next = s.next + 1) := by
  unfold Mgr.handle Mgr.add at *
  by_cases ha : s.almost
  · rw [if_pos ha] at hh
    simp only at hh
    rw [List.getElem?_append] at hh
    split_ifs at hh with hj
    · exact Or.inl hh
    · exfalso
      cases hx : ([⟨box, none, 0⟩] : List Entry)[j - s.files.length]? with
      | none => rw [hx] at hh; simp at hh
      | some e =>
        have := List.mem_of_getElem? hx
        simp at this
        rw [hx, this] at hh
        simp at hh
  · rw [if_neg ha] at hh
    cases ok with
    | true =>
      simp only [if_true] at hh
      rw [List.getElem?_append] at hh
      split_ifs at hh with hj
      · exact Or.inl hh
      · right
        rw [if_neg ha]
        cases hx : ([⟨box, some s.next, 0⟩] : List Entry)[j - s.files.length]? with
        | none => rw [hx] at hh; simp at hh
        | some e =>
          have := List.mem_of_getElem? hx
          simp at this
          rw [hx, this] at hh
          simp at hh
          exact ⟨hh.symm, rfl⟩
    | false =>
      simp only [Bool.false_eq_true, if_false] at hh
      rw [List.getElem?_append] at hh
      split_ifs at hh with hj
      · left
        unfold Mgr.freeup at hh
        simp only at hh
        generalize (if s.files.length < 101 then 1 else s.files.length - 100) = m at hh
        rw [List.getElem?_append] at hh
        split_ifs at hh with hj2
        · rw [List.getElem?_take] at hh
          split_ifs at hh with hj3
          · exact hh
          · simp at hh
        · rw [List.getElem?_map] at hh
          cases hx : (s.files.drop m)[j - (s.files.take m).length]? with
          | none => rw [hx] at hh; simp at hh
          | some e => rw [hx] at hh; simp at hh
      · exfalso
        cases hx : ([⟨box, none, 0⟩] : List Entry)[j - s.freeup.files.length]? with
        | none => rw [hx] at hh; simp at hh
        | some e =>
          have := List.mem_of_getElem? hx
          simp at this
          rw [hx, this] at hh
          simp at hh

theorem next_add (s : Mgr) (box : Box ℝ 2) (ok : Bool) : s.next ≤ (s.add box ok).next := by
  unfold Mgr.add Mgr.freeup
  split_ifs <;> simp

/-- **C118.**  Whatever the calls and their order (threads included: calls exclude each other), each reference that a client got
and did not give back refers to the file that was opened for it, still open; it was not closed and opened again, for every opening
has a new number. -/
theorem references_stay_open (w : World) (hr : Reachable w) :
    (∀ i h, (i, h) ∈ w.out → w.mgr.handle i = some h) ∧ (∀ i, held w.out i ≤ usedOf w.mgr i) ∧
    (∀ i h, w.mgr.handle i = some h → h < w.mgr.next) := by
  induction hr with
  | init =>
    refine ⟨by simp, by simp [held], ?_⟩
    intro i h hh
    simp [Mgr.init, Mgr.handle] at hh
  | step w op _ hal ih =>
    obtain ⟨ih1, ih2, ih3⟩ := ih
    cases op with
    | add box ok =>
      have ho : w.out = [] := hal
      refine ⟨?_, ?_, ?_⟩
      · intro i h hm
        simp [World.step, ho] at hm
      · intro i
        simp [World.step, ho, held]
      · intro i h hh
        rcases handle_add_old w.mgr box ok i h hh with h1 | ⟨h1, h2⟩
        · exact lt_of_lt_of_le (ih3 i h h1) (next_add w.mgr box ok)
        · show h < (w.mgr.add box ok).next
          omega
    | release i h =>
      have hm : (i, h) ∈ w.out := hal
      refine ⟨?_, ?_, ?_⟩
      · intro j k hk
        show (w.mgr.release i).handle j = some k
        rw [handle_release]
        exact ih1 j k (List.mem_of_mem_erase hk)
      · intro j
        show held (w.out.erase (i, h)) j ≤ usedOf (w.mgr.release i) j
        rw [usedOf_release]
        have h1 := ih2 j
        unfold held at *
        rw [List.countP_erase]
        by_cases hij : j = i
        · subst hij
          simp only [decide_true, if_true, hm, and_self]
          omega
        · simp only [Ne.symm hij, decide_false, Bool.false_eq_true, and_false, if_false, hij]
          omega
      · intro j k hk
        change (w.mgr.release i).handle j = some k at hk
        rw [handle_release] at hk
        exact ih3 j k hk
    | get i bbox ok =>
      have hi : i < w.mgr.files.length := hal
      obtain ⟨hu, hc⟩ := get_cases w.mgr i bbox ok hi
      have hbn : (w.mgr.bump i).next = w.mgr.next := rfl
      unfold World.step
      dsimp only
      have hle : ∀ j, held w.out j ≤ usedOf (w.mgr.get i bbox ok).1 j := fun j => by
        rw [hu]; exact le_trans (ih2 j) (Nat.le_add_right _ _)
      have hle' : ∀ h j, held ((i, h) :: w.out) j ≤ usedOf (w.mgr.get i bbox ok).1 j := fun h j => by
        rw [hu]
        have := ih2 j
        unfold held at *
        rw [List.countP_cons]
        by_cases hij : j = i
        · subst hij; simp only [decide_true, if_true]; omega
        · simp only [Ne.symm hij, decide_false, Bool.false_eq_true, if_false, hij]; omega
      rcases hc with ⟨h, h1, h2⟩ | ⟨h1, h2 | h2⟩ | ⟨m, k, h1, h2, h3, h4, h5 | h5⟩
      · rw [h2] at hle' ⊢
        refine ⟨?_, hle' h, ?_⟩
        · intro j k hk
          show (w.mgr.bump i).handle j = some k
          rw [bump_handle]
          rcases List.mem_cons.1 hk with h | h
          · obtain ⟨rfl, rfl⟩ := Prod.mk.inj h; exact h1
          · exact ih1 j k h
        · intro j k hk
          change (w.mgr.bump i).handle j = some k at hk
          rw [bump_handle] at hk
          exact ih3 j k hk
      · rw [h2] at hle ⊢
        refine ⟨?_, hle, ?_⟩
        · intro j k hk
          show (w.mgr.bump i).handle j = some k
          rw [bump_handle]
          exact ih1 j k hk
        · intro j k hk
          change (w.mgr.bump i).handle j = some k at hk
          rw [bump_handle] at hk
          exact ih3 j k hk
      · rw [h2] at hle ⊢
        refine ⟨?_, hle, ?_⟩
        · intro j k hk
          show (w.mgr.bump i).handle j = some k
          rw [bump_handle]
          exact ih1 j k hk
        · intro j k hk
          change (w.mgr.bump i).handle j = some k at hk
          rw [bump_handle] at hk
          exact ih3 j k hk
      · have hno : ∀ j n, (j, n) ∈ w.out → j ≠ m := by
          rintro j n hm rfl
          have := ih2 j
          rw [h4] at this
          have hp : 0 < held w.out j := List.countP_pos_iff.2 ⟨(j, n), hm, by simp⟩
          omega
        rw [h5] at hle' ⊢
        refine ⟨?_, hle' _, ?_⟩
        · intro j n hk
          show (((w.mgr.bump i).close m).open i).handle j = some n
          rw [swap_handles _ _ _ _ hi]
          rcases List.mem_cons.1 hk with h | h
          · obtain ⟨rfl, rfl⟩ := Prod.mk.inj h; rw [if_pos rfl]
          · have hj := ih1 j n h
            rw [if_neg (by rintro rfl; rw [h1] at hj; exact absurd hj (by simp)), if_neg (hno j n h)]
            exact hj
        · intro j n hk
          change (((w.mgr.bump i).close m).open i).handle j = some n at hk
          rw [swap_handles _ _ _ _ hi] at hk
          show n < w.mgr.next + 1
          split_ifs at hk
          · simp at hk; omega
          · have := ih3 j n hk; omega
      · have hno : ∀ j n, (j, n) ∈ w.out → j ≠ m := by
          rintro j n hm rfl
          have := ih2 j
          rw [h4] at this
          have hp : 0 < held w.out j := List.countP_pos_iff.2 ⟨(j, n), hm, by simp⟩
          omega
        rw [h5] at hle ⊢
        refine ⟨?_, hle, ?_⟩
        · intro j n hk
          show ((w.mgr.bump i).close m).handle j = some n
          rw [handle_close, bump_handle, if_neg (hno j n hk)]
          exact ih1 j n hk
        · intro j n hk
          change ((w.mgr.bump i).close m).handle j = some n at hk
          rw [handle_close, bump_handle] at hk
          show n < w.mgr.next
          split_ifs at hk
          exact ih3 j n hk

/-! ### The number of open files -/

theorem countP_modify {α : Type} (p : α → Bool) (f : α → α) (l : List α) (i : Nat) (h : i < l.length) :
    (l.modify i f).countP p + (if p l[i] then 1 else 0) = l.countP p + if p (f l[i]) then 1 else 0 := by
  induction l generalizing i with
  | nil => simp at h
  | cons a l ih =>
    cases i with
    | zero => simp only [List.modify_zero_cons, List.countP_cons, List.getElem_cons_zero]; omega
    | succ i =>
      have := ih i (by simpa using h)
      simp only [List.modify_succ_cons, List.countP_cons, List.getElem_cons_succ]
      omega

theorem count_bump (s : Mgr) (i : Nat) : (s.bump i).count = s.count := by
  unfold Mgr.count Mgr.bump
  rcases Nat.lt_or_ge i s.files.length with h | h
  · have := countP_modify (fun e => e.handle.isSome) (fun e : Entry => { e with used := e.used + 1 }) s.files i h
    dsimp only at this ⊢
    omega
  · dsimp only
    rw [List.modify_eq_self h]

theorem count_close (s : Mgr) (m h : Nat) (hm : s.handle m = some h) : (s.close m).count + 1 = s.count := by
  unfold Mgr.handle at hm
  cases hf : s.files[m]? with
  | none => rw [hf] at hm; simp at hm
  | some e =>
    obtain ⟨hlt, he⟩ := List.getElem?_eq_some_iff.1 hf
    have := countP_modify (fun e => e.handle.isSome) (fun e : Entry => { e with handle := none }) s.files m hlt
    rw [hf] at hm
    simp only [Option.bind_some] at hm
    unfold Mgr.count Mgr.close
    rw [he] at this
    simp only [hm, Option.isSome_some, Option.isSome_none, if_true, Bool.false_eq_true, if_false] at this
    exact this

theorem count_open (s : Mgr) (i : Nat) (hi : i < s.files.length) (h : s.handle i = none) : (s.open i).count = s.count + 1 := by
  have := countP_modify (fun e => e.handle.isSome) (fun e : Entry => { e with handle := some s.next }) s.files i hi
  unfold Mgr.handle at h
  rw [List.getElem?_eq_getElem hi] at h
  simp only [Option.bind_some] at h
  unfold Mgr.count Mgr.open
  simp only [h, Option.isSome_some, Option.isSome_none, if_true, Bool.false_eq_true, if_false] at this
  exact this

/-- **C118.**  A call that returns a handle keeps the number of open files; it is one less only when a file was closed to make room
and the wanted one could not be opened. -/
theorem get_count (s : Mgr) (i : Nat) (bbox : Box ℝ 2) (ok : Bool) (hi : i < s.files.length) :
    ((s.get i bbox ok).2 ≠ .openFailed → (s.get i bbox ok).1.count = s.count) ∧
    ((s.get i bbox ok).2 = .openFailed → (s.get i bbox ok).1.count + 1 = s.count) := by
  obtain ⟨-, hc⟩ := get_cases s i bbox ok hi
  rcases hc with ⟨h, h1, h2⟩ | ⟨h1, h2 | h2⟩ | ⟨m, k, h1, h2, h3, h4, h5 | h5⟩
  · rw [h2]; exact ⟨fun _ => count_bump s i, fun h => absurd h (by simp)⟩
  · rw [h2]; exact ⟨fun _ => count_bump s i, fun h => absurd h (by simp)⟩
  · rw [h2]; exact ⟨fun _ => count_bump s i, fun h => absurd h (by simp)⟩
  · rw [h5]
    refine ⟨fun _ => ?_, fun h => absurd h (by simp)⟩
    have a := count_close (s.bump i) m k (by rw [bump_handle]; exact h3)
    have b := count_open ((s.bump i).close m) i (by unfold Mgr.close; simp [bump_length, hi])
      (by rw [handle_close, bump_handle, if_neg (Ne.symm h2)]; exact h1)
    rw [count_bump] at a
    show (((s.bump i).close m).open i).count = s.count
    omega
  · rw [h5]
    refine ⟨fun h => absurd rfl h, fun _ => ?_⟩
    have a := count_close (s.bump i) m k (by rw [bump_handle]; exact h3)
    rw [count_bump] at a
    exact a

theorem get_static (s : Mgr) (i : Nat) (bbox : Box ℝ 2) (ok : Bool) (hi : i < s.files.length) :
    (s.get i bbox ok).1.almost = s.almost ∧ (s.get i bbox ok).1.maxOpen = s.maxOpen := by
  obtain ⟨-, hc⟩ := get_cases s i bbox ok hi
  rcases hc with ⟨h, h1, h2⟩ | ⟨h1, h2 | h2⟩ | ⟨m, k, h1, h2, h3, h4, h5 | h5⟩ <;> (first | rw [h2] | rw [h5]) <;> exact ⟨rfl, rfl⟩

theorem count_release (s : Mgr) (i : Nat) : (s.release i).count = s.count := by
  unfold Mgr.count Mgr.release
  rcases Nat.lt_or_ge i s.files.length with h | h
  · have := countP_modify (fun e => e.handle.isSome) (fun e : Entry => { e with used := e.used - 1 }) s.files i h
    dsimp only at this ⊢
    omega
  · dsimp only
    rw [List.modify_eq_self h]

/-- **C118.**  Once a file could not be opened, at most as many files are open as the limit set then: a hundred fewer than there
were images, but at least one. -/
theorem open_bound (w : World) (hr : Reachable w) : w.mgr.almost = true → w.mgr.count ≤ w.mgr.maxOpen := by
  induction hr with
  | init => intro h; simp [Mgr.init] at h
  | step w op _ hal ih =>
    cases op with
    | add box ok =>
      intro h
      change (w.mgr.add box ok).almost = true at h
      show (w.mgr.add box ok).count ≤ (w.mgr.add box ok).maxOpen
      unfold Mgr.add at h ⊢
      by_cases ha : w.mgr.almost
      · rw [if_pos ha]
        have := ih ha
        unfold Mgr.count at *
        simpa using this
      · rw [if_neg ha] at h ⊢
        cases ok with
        | true => simp only [if_true] at h; exact absurd h ha
        | false =>
          simp only [Bool.false_eq_true, if_false]
          unfold Mgr.count Mgr.freeup
          simp only [List.countP_append, List.countP_map, List.countP_singleton, Option.isSome_none, Bool.false_eq_true, if_false]
          have h0 : (w.mgr.files.drop (if w.mgr.files.length < 101 then 1 else w.mgr.files.length - 100)).countP
              ((fun e : Entry => e.handle.isSome) ∘ fun e => { e with handle := none }) = 0 := by
            rw [List.countP_eq_zero]; intro a _; simp
          rw [h0]
          have := List.countP_le_length (p := fun e : Entry => e.handle.isSome)
            (l := w.mgr.files.take (if w.mgr.files.length < 101 then 1 else w.mgr.files.length - 100))
          rw [List.length_take] at this
          omega
    | release i h =>
      intro ha
      show (w.mgr.release i).count ≤ _
      rw [count_release]
      exact ih ha
    | get i bbox ok =>
      intro ha
      have hi : i < w.mgr.files.length := hal
      obtain ⟨h1, h2⟩ := get_static w.mgr i bbox ok hi
      obtain ⟨h3, h4⟩ := get_count w.mgr i bbox ok hi
      change (w.mgr.get i bbox ok).1.almost = true at ha
      show (w.mgr.get i bbox ok).1.count ≤ (w.mgr.get i bbox ok).1.maxOpen
      rw [h1] at ha
      have := ih ha
      rw [h2]
      by_cases hf : (w.mgr.get i bbox ok).2 = .openFailed
      · have := h4 hf; omega
      · have := h3 hf; omega

/-! ### What is not so -/

/-- A box. -/
def unitBox : Box ℝ 2 := ⟨fun _ => 0, fun _ => 1⟩

theorem unit_near : ¬ Apart unitBox unitBox := by
  intro h
  refine h (fun _ => 0) ?_
  simp [unitBox, Box.contains]

/-- Three images at the same place, with one handle. -/
def three : Mgr := ((Mgr.init.add unitBox true).add unitBox false).add unitBox true

theorem three_eq : three = ⟨[⟨unitBox, some 0, 0⟩, ⟨unitBox, none, 0⟩, ⟨unitBox, none, 0⟩], true, 1, 1⟩ := by
  simp [three, Mgr.add, Mgr.init, Mgr.freeup]

theorem three_reachable : Reachable ⟨three, []⟩ :=
  .step _ (.add unitBox true) (.step _ (.add unitBox false) (.step _ (.add unitBox true) .init rfl) rfl) rfl

/-- The second image was used and given back. -/
def usedOne : Mgr := ⟨[⟨unitBox, none, 0⟩, ⟨unitBox, some 1, 0⟩, ⟨unitBox, none, 0⟩], true, 1, 2⟩

theorem three_get : three.get 1 unitBox true = (⟨[⟨unitBox, none, 0⟩, ⟨unitBox, some 1, 1⟩, ⟨unitBox, none, 0⟩], true, 1, 2⟩, .handle 1) := by
  have hm : (unitBox.crop unitBox).empty = false := (meets_iff _ _).2 unit_near
  rw [get_closed _ _ _ _ (by rw [three_eq]; rfl)]
  have hp : pick three 1 unitBox = 0 := by
    unfold pick
    rw [three_eq]
    simp [Mgr.bump, rank, hm, maxIndex, maxFrom]
    norm_num
  have hk : rk three 1 unitBox 0 = 1.5 := by
    unfold rk
    rw [three_eq]
    simp [Mgr.bump, rank, hm]
  rw [hp, hk, if_neg (by norm_num), three_eq]
  rfl

theorem usedOne_reachable : Reachable ⟨usedOne, []⟩ := by
  have h1 := Reachable.step _ (.get 1 unitBox true) three_reachable (by show 1 < three.files.length; rw [three_eq]; simp)
  have e1 : World.step ⟨three, []⟩ (.get 1 unitBox true) =
      ⟨⟨[⟨unitBox, none, 0⟩, ⟨unitBox, some 1, 1⟩, ⟨unitBox, none, 0⟩], true, 1, 2⟩, [(1, 1)]⟩ := by
    unfold World.step
    dsimp only
    rw [three_get]
  rw [e1] at h1
  have h2 := Reachable.step _ (.release 1 1) h1 (by show (1, 1) ∈ [(1, 1)]; simp)
  simpa [World.step, Mgr.release, usedOne] using h2

/-- **C118 (refuted).**  Three images show the box, one file may be open: after the second image was used and given back, the third
cannot be had, although the second is open and unused.  And after the failed call the third counts as used for ever. -/
theorem get_wrong : Reachable ⟨usedOne, []⟩ ∧ Idle usedOne 1 ∧ (usedOne.get 2 unitBox true).2 = .notOpen ∧
    usedOf (usedOne.get 2 unitBox true).1 2 = 1 := by
  have hm : (unitBox.crop unitBox).empty = false := (meets_iff _ _).2 unit_near
  have hns : ¬ ∃ j, Spare usedOne unitBox j := by
    rintro ⟨j, e, h1, -, -, h4⟩
    have := List.mem_of_getElem? h1
    simp [usedOne] at this
    rcases this with rfl | rfl | rfl <;> exact unit_near h4
  have hf : FirstNear usedOne 2 unitBox 0 := ⟨⟨by decide, _, rfl, rfl, unit_near⟩, by intro j hj; omega⟩
  have hg := (get_near usedOne 2 0 unitBox (by simp [usedOne]) rfl hns hf).1 rfl
  refine ⟨usedOne_reachable, ⟨_, rfl, by simp, rfl⟩, by rw [hg], ?_⟩
  rw [hg]
  rfl

/-- **C118 (refuted).**  If the first file cannot be opened, no file can be had at all. -/
theorem none_open (box bbox : Box ℝ 2) (boxes : List (Box ℝ 2 × Bool)) (i h : Nat) (ok : Bool) :
    ((boxes.foldl (fun s b => s.add b.1 b.2) (Mgr.init.add box false)).get i bbox ok).2 ≠ .handle h := by
  have key : ∀ (boxes : List (Box ℝ 2 × Bool)) (s : Mgr), s.almost = true → (∀ j, s.handle j = none) →
      ∀ j, (boxes.foldl (fun s b => s.add b.1 b.2) s).handle j = none := by
    intro boxes
    induction boxes with
    | nil => intro s _ h j; exact h j
    | cons b l ih =>
      intro s ha hs j
      rw [List.foldl_cons]
      apply ih
      · unfold Mgr.add; rw [if_pos ha]; exact ha
      · intro k
        cases hk : (s.add b.1 b.2).handle k with
        | none => rfl
        | some n =>
          rcases handle_add_old s b.1 b.2 k n hk with h1 | ⟨-, h2⟩
          · rw [hs k] at h1; exact absurd h1 (by simp)
          · unfold Mgr.add at h2
            rw [if_pos ha] at h2
            simp at h2
  have hall := key boxes (Mgr.init.add box false) rfl (by
    intro j
    cases hk : (Mgr.init.add box false).handle j with
    | none => rfl
    | some n =>
      rcases handle_add_old Mgr.init box false j n hk with h1 | ⟨-, h2⟩
      · simp [Mgr.init, Mgr.handle] at h1
      · simp [Mgr.init, Mgr.add, Mgr.freeup] at h2)
  rw [get_eq, hall i, hall]
  dsimp only
  split_ifs <;> simp

/-! ### Cases that meet the hypotheses -/

/-- A box far from the unit box. -/
def farBox : Box ℝ 2 := ⟨fun _ => 10, fun _ => 12⟩

theorem far_apart : Apart unitBox farBox := by
  rintro p ⟨h1, h2⟩
  simp only [Box.contains, ne_eq, OfNat.ofNat_ne_zero, not_false_eq_true, decide_true, Bool.true_and, Bool.and_eq_true,
    unitBox, farBox] at h1 h2
  have a := of_decide_eq_true h1.2 0
  have b := of_decide_eq_true h2.1 0
  linarith

/-- The open image shows nothing of the wanted box, so it gives its handle away. -/
example : ∃ m, Spare three farBox m ∧ (three.get 1 farBox true).2 = .handle 1 := by
  obtain ⟨m, h1, -, h2, -⟩ := get_far three 1 farBox (by rw [three_eq]; simp) (by rw [three_eq]; rfl)
    ⟨0, ⟨unitBox, some 0, 0⟩, by rw [three_eq]; rfl, by simp, rfl, far_apart⟩
  refine ⟨m, h1, ?_⟩
  rw [h2, three_eq]

/-- A client has a reference: it stays good. -/
example : ∃ w, Reachable w ∧ w.out = [(0, 0)] ∧ w.mgr.handle 0 = some 0 := by
  have h := Reachable.step _ (.get 0 farBox true) three_reachable (by show 0 < three.files.length; rw [three_eq]; simp)
  have e : (World.step ⟨three, []⟩ (.get 0 farBox true)).out = [(0, 0)] := by
    unfold World.step
    dsimp only
    rw [get_eq, three_eq]
    rfl
  exact ⟨_, h, e, (references_stay_open _ h).1 0 0 (by rw [e]; simp)⟩

example : three.count ≤ 1 := by
  have := open_bound _ three_reachable (by show three.almost = true; rw [three_eq])
  rw [three_eq] at *
  exact this

end Verif.FileIO
